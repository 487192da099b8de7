import Verif.Model.TagProgram
import Verif.Model.Mesh

/-!
# Local classification (include/kigumi/Classify_faces_locally.h), as a program on face tags
-/
namespace Kigumi.Local
open Kigumi TagProg Global

/-- `Face_around_edge` (Classify_faces_locally.h:182-194) without the coordinates, which only matter for sorting: face, third vertex, and whether the
face is oriented counterclockwise (`pqr`). -/
structure Entry where
  fi : Nat
  r : Nat
  ccw : Bool
  deriving DecidableEq, Repr, Inhabited

/-- `while (f.at(i) != v) ++i;` (Classify_faces_locally.h:52-57): the first corner that is `v`; `at` throws if there is none. -/
def findCorner (f : Tri Nat) (v : Nat) : Outcome Nat :=
  if f.a = v then .ok 0 else if f.b = v then .ok 1 else if f.c = v then .ok 2 else .exn "out_of_range"

/-- `f.at(k)` -/
def cornerAt (f : Tri Nat) (k : Nat) : Outcome Nat :=
  match k with
  | 0 => .ok f.a
  | 1 => .ok f.b
  | 2 => .ok f.c
  | _ => .exn "out_of_range"

/-- The entry of a face around the edge `pq` (Classify_faces_locally.h:46-67), without coordinates. `3 - (i + j)` cannot be negative for a proper edge; should it be, the
unsigned result is out of range, which is what the model says for `i + j > 3`. -/
def mkEntry (p q : Nat) (fi : Nat) (f : Tri Nat) : Outcome Entry := do
  let i ← findCorner f p
  let j ← findCorner f q
  let r ← if i + j ≤ 3 then cornerAt f (3 - (i + j)) else .exn "out_of_range"
  .ok ⟨fi, r, decide (j = (i + 1) % 3)⟩

/-- What a call can see besides tags: number of faces, neighbours that are not separated by a border edge, operand of each face. -/
structure Env where
  n : Nat
  nbr : Nat → List Nat
  fromLeft : Nat → Bool

/-- The loop of `Propagate_face_tags` (Propagate_face_tags.h:26-43), with a bound on the number of faces taken from the queue. `tag2` is read at 31 and again
at 34. -/
def floodLoop (E : Env) (tag : Tag) (fl : Warnings) (k : Warnings → Prog) (fuel : Nat) (pending queue : List Nat) (w : Warnings) : Prog :=
  match pending, queue with
  | [], [] => k w
  | [], f :: q =>
    match fuel with
    | 0 => .diverge
    | fuel + 1 => floodLoop E tag fl k fuel (E.nbr f) q w
  | g :: p, q =>
    .read g fun t =>
      if t = .unknown then .write g tag (floodLoop E tag fl k fuel p (q ++ [g]) w)
      else .read g fun t' => floodLoop E tag fl k fuel p q (if t' ≠ tag then Warnings.or w fl else w)
  termination_by (fuel, pending.length)

/-- `Propagate_face_tags::operator()` (Propagate_face_tags.h:18-46). -/
def flood (E : Env) (seed : Nat) (k : Warnings → Prog) : Prog :=
  .read seed fun tag => floodLoop E tag (flag (E.fromLeft seed)) k (E.n + 1) [] [seed] .none

/-- Is some face around the edge unclassified? (Classify_faces_locally.h:28-34) -/
def findUntagged : List Nat → (Bool → Prog) → Prog
  | [], k => k false
  | f :: fs, k => .read f fun t => if t = .unknown then k true else findUntagged fs k

/-- `faces_.at(i)`; the indices used are always in range. -/
def nth (cs : List Entry) (i : Nat) : Entry := cs.getD i default

/-- Tag coincident faces (Classify_faces_locally.h:75-87), for the indices `is`. -/
def step1 (cs : List Entry) : List Nat → Prog → Prog
  | [], k => k
  | i :: is, k =>
    let f := nth cs i
    let g := nth cs ((i + 1) % cs.length)
    if f.r = g.r then
      let t : Tag := if f.ccw = g.ccw then .coplanar else .opposite
      .write f.fi t (.write g.fi t (step1 cs is k))
    else step1 cs is k

/-- `tag == COPLANAR || tag == OPPOSITE` (Classify_faces_locally.h:101-102). -/
def isOverlapping (f : Nat) (k : Bool → Prog) : Prog :=
  .read f fun t => if t = .coplanar then k true else .read f fun t => k (decide (t = .opposite))

/-- Find pairs of consecutive faces with the same orientation (Classify_faces_locally.h:91-119), for the indices `is`; the state is `k` if it has been set. -/
def step2 (cs : List Entry) : List Nat → Option Nat → (Option Nat → Prog) → Prog
  | [], st, k => k st
  | i :: is, st, k =>
    let j := (i + 1) % cs.length
    let f := nth cs i
    let g := nth cs j
    isOverlapping f.fi fun o =>
      if o then step2 cs is st k
      else isOverlapping g.fi fun o =>
        if o then step2 cs is st k
        else if f.ccw = g.ccw then
          if f.ccw then .write f.fi .interior (.write g.fi .exterior (step2 cs is (some j) k))
          else .write f.fi .exterior (.write g.fi .interior (step2 cs is (some j) k))
        else step2 cs is st k

/-- One tour around the edge (Classify_faces_locally.h:137-158), for the indices `is`; the continuation learns whether it was consistent.
Line 149 reads the tag, lines 153-154 up to three more times. -/
def tour (cs : List Entry) (dryRun : Bool) : List Nat → Tag → Bool → (Bool → Prog) → Prog
  | [], _, _, k => k true
  | i :: is, tag, ccw, k =>
    let f := nth cs (i % cs.length)
    let tag : Tag := if f.ccw = ccw then (if tag = .exterior then .interior else .exterior) else tag
    let rest := tour cs dryRun is tag f.ccw k
    .read f.fi fun t =>
      if t = .unknown then (if dryRun then rest else .write f.fi tag rest)
      else .read f.fi fun t =>
        let check := Prog.read f.fi fun t => if t ≠ tag then k false else rest
        if t = .exterior then check else .read f.fi fun t => if t = .interior then check else rest

/-- The indices `k + 1, …, k + size` (Classify_faces_locally.h:140). -/
def tourIndices (cs : List Entry) (k : Nat) : List Nat := (List.range cs.length).map (fun d => k + 1 + d)

/-- Check consistency and tag the remaining faces (Classify_faces_locally.h:135-164). -/
def step3 (cs : List Entry) (k : Nat) (rest : Prog) : Prog :=
  .read (nth cs k).fi fun tag =>
    tour cs true (tourIndices cs k) tag (nth cs k).ccw fun ok =>
      if ok then .read (nth cs k).fi fun tag => tour cs false (tourIndices cs k) tag (nth cs k).ccw fun _ => rest
      else rest

/-- Propagate the tags (Classify_faces_locally.h:169-178). -/
def propagate (E : Env) : List Entry → Warnings → Prog
  | [], w => .ret w
  | f :: fs, w => .read f.fi fun t => if t ≠ .unknown then flood E f.fi fun w' => propagate E fs (Warnings.or w w') else propagate E fs w

/-- `Classify_faces_locally::operator()` (Classify_faces_locally.h:26-179) for an edge whose surrounding faces are `around`; `sorted` is the content of `faces_`
after sorting (`none` when constructing an entry throws, 228). -/
def body (E : Env) (around : List Nat) (sorted : Option (List Entry)) : Prog :=
  findUntagged around fun found =>
    if found then
      match sorted with
      | none => .fail
      | some cs =>
        step1 cs (List.range cs.length) <|
          step2 cs (List.range cs.length) none fun st =>
            match st with
            | none => propagate E cs .none
            | some k => step3 cs k (propagate E cs .none)
    else .ret .none

/-- The local classification of all border edges (Mix.h:56-67): one activity per edge; `around`, `sorted` as in `body`. -/
def start (E : Env) (edges : List (List Nat × Option (List Entry))) (tags : Nat → Tag) : Cfg :=
  ⟨tags, fun i => match edges[i]? with
    | some (around, sorted) => body E around sorted
    | none => .ret .none⟩

/-- A possible result: all bodies have returned; warnings are combined in any order (merge step of `parallel_do`). -/
def Result (E : Env) (edges : List (List Nat × Option (List Entry))) (tags0 tags : Nat → Tag) (w : Warnings) : Prop :=
  ∃ (c : Cfg) (ws : Nat → Warnings) (order : List Nat), Exec (start E edges tags0) c ∧ c.tags = tags ∧
    (∀ i, i < edges.length → c.prog i = .ret (ws i)) ∧ order.Perm (List.range edges.length) ∧
    w = order.foldl (fun w i => Warnings.or w (ws i)) .none

end Kigumi.Local

import Verif.Proofs.Malformed
import Verif.Props.Program
import Verif.Props.Solid
import Verif.Props.FindDefects

/-!
# C112: faces with vertices that do not exist

Neither the constructors of soups nor the readers check the indices of vertices (C51). Here is what the operations do with such meshes: `std::vector::at` throws, before anything else is done.
-/
namespace Kigumi.Props
open Kigumi Outcome
open Kigumi.Geo (P3)
open Kigumi.Spec (ValidFaces HasCorners truth select)
open Kigumi.Cli (World Name main)
open Kigumi.IO (Host Numbers Pt Byte)
open Kigumi.Program
variable {P D : Type}

/-- **Corefinement.** If a face of one of the soups has a corner that is not a vertex, every execution of the constructor throws `std::out_of_range`, whatever the machine, the kernel and the threads do; and there are executions. -/
theorem C112_corefine (E : Corefine.Env) (l r : Soup P3 D) (h : ¬ (ValidFaces l.points l.faces ∧ ValidFaces r.points r.faces)) :
    (∃ o, Corefine.construct E l r o) ∧ ∀ o, Corefine.construct E l r o → o = exn "out_of_range" :=
  ⟨Corefine.construct_exists (E := E) (Corefine.both l r), fun _ ho => Malformed.construct_malformed h ho⟩

/-- **Selecting the faces of a result.** For any mixed soup with data for each face, it throws `std::out_of_range` iff a face that it takes has a corner that is not a vertex, and returns otherwise. -/
theorem C112_extract {m : Soup P (MixedData D)} (hd : m.data.length = m.faces.length) (op : Op) (preferFirst : Bool) :
    (extract m op preferFirst = exn "out_of_range" ↔ ∃ (i : Nat) (f : Tri Nat) (d : MixedData D), m.faces[i]? = some f ∧ m.data[i]? = some d ∧ select op preferFirst d.fromLeft d.tag ≠ none ∧ ¬ ValidFaces m.points [f]) ∧
    (extract m op preferFirst = exn "out_of_range" ∨ ∃ s, extract m op preferFirst = ok s) := by
  obtain ⟨h1, h2⟩ := Malformed.extract_throws_iff (op := op) (pf := preferFirst) hd
  have one : ∀ f : Tri Nat, ValidFaces m.points [f] ↔ Malformed.Inside m.points f := fun f => ⟨fun h => h f List.mem_cons_self, fun h g hg => by rcases List.mem_singleton.1 hg with rfl; exact h⟩
  simp only [one]
  by_cases h : ∃ fi, Malformed.Faulty m op preferFirst fi
  · exact ⟨⟨fun _ => h, fun _ => h1 h⟩, .inl (h1 h)⟩
  · obtain ⟨s, e⟩ := h2 h
    refine ⟨⟨fun hx => ?_, fun hx => absurd hx h⟩, .inr ⟨s, e⟩⟩
    rw [e] at hx; cases hx

/-- **An empty or full operand.** The other operand is not looked at when the builder is made. The result is empty or full if the operation does not depend on the other operand, and otherwise `std::out_of_range` is thrown. -/
theorem C112_trivial (mix : Soup P D → Soup P D → Outcome (Soup P (MixedData D))) {s : Soup P D} (hd : s.data.length = s.faces.length) (h : ¬ ValidFaces s.points s.faces) (op : Op) (preferFirst v : Bool) :
    (∃ bb, Builder.make mix (fullOrEmpty v) ⟨.boundaryDefined, s⟩ = ok bb ∧ bb.run op preferFirst = if truth op v false = truth op v true then ok (fullOrEmpty (truth op v false)) else exn "out_of_range") ∧
    ∃ bb, Builder.make mix ⟨.boundaryDefined, s⟩ (fullOrEmpty v) = ok bb ∧ bb.run op preferFirst = if truth op false v = truth op true v then ok (fullOrEmpty (truth op false v)) else exn "out_of_range" :=
  ⟨Malformed.second_malformed mix hd h op preferFirst v, Malformed.first_malformed mix hd h op preferFirst v⟩

theorem no_corners {pts : List P} {fs : List (Tri Nat)} {ts : List (Tri P)} (hc : HasCorners pts fs ts) : ValidFaces pts fs := by
  intro f hf
  obtain ⟨i, hi, rfl⟩ := List.getElem_of_mem hf
  have hl := hc.length_eq
  obtain ⟨h1, h2, h3⟩ := List.Forall₂.get hc hi (hl ▸ hi)
  exact ⟨(List.getElem?_eq_some_iff.1 h1).1, (List.getElem?_eq_some_iff.1 h2).1, (List.getElem?_eq_some_iff.1 h3).1⟩

/-- **Two boundaries.** The builder is never made, and may fail. -/
theorem C112_builder {a b : Region P3 Unit} (ha : a.kind = .boundaryDefined) (hb : b.kind = .boundaryDefined) (h : ¬ (ValidFaces a.boundary.points a.boundary.faces ∧ ValidFaces b.boundary.points b.boundary.faces)) :
    (∀ bb v, ¬ Builds a b bb v) ∧ Breaks a b := by
  have ht : ¬ ((a.isEmptyOrFull || b.isEmptyOrFull) = true) := by
    unfold Region.isEmptyOrFull Region.isEmpty Region.isFull
    rw [ha, hb]
    decide
  constructor
  · rintro bb v ⟨E, E', -, hx⟩
    unfold Mix.Built at hx
    rw [if_neg ht] at hx
    obtain ⟨m0, border, ⟨st, -, -, -, -, hst, -⟩, -⟩ := hx
    cases Malformed.construct_malformed h hst
  · obtain ⟨⟨o, ho⟩, hall⟩ := C112_corefine (Corefine.exactEnv fun _ => []) a.boundary b.boundary h
    refine ⟨Corefine.exactEnv fun _ => [], someEnv fun _ => [], fun orig c1 c2 => absurd ⟨no_corners c1, no_corners c2⟩ h, ?_⟩
    rw [if_neg ht]
    refine .inl ⟨o, ho, ?_⟩
    rw [hall o ho]
    exact fun s hs => nomatch hs

/-! ## The program -/

/-- Where a failure of the builder comes from: it is that of the corefinement (include/kigumi/Mix.h:34), or the corefinement returned. -/
def FailsAs (E : Cli.Env Byte Pt Unit (Builder P3 Unit)) (a b : Region Pt Unit) : Prop :=
  (∀ x, E.build a b ≠ ok x) → ∃ (E0 : Corefine.Env) (o : Outcome Corefine.State), Corefine.construct E0 (places a).boundary (places b).boundary o ∧
    ((∃ st, o = ok st) ∨ (∃ m, o = exn m ∧ E.build a b = exn m) ∨ ∃ m, o = ub m ∧ E.build a b = ub m)

theorem places_valid (r : Region Pt Unit) : ValidFaces (places r).boundary.points (places r).boundary.faces ↔ ValidFaces r.boundary.points r.boundary.faces := by
  unfold ValidFaces places
  simp only [List.length_map]

/-- **The command `boolean`.** If both operands can be read, have boundaries, and a face of one of them has a corner that is not a vertex, the program reports the exception, exits with status 1 and leaves all files as they are. -/
theorem C112_program {h : Host} {N : Numbers} {E : Cli.Env Byte Pt Unit (Builder P3 Unit)} (hE : Library h N E) {rest : List Name} {w : World Byte} {o : Cli.Options} (ho : E.parseBoolean rest = ok o) {a b : Region Pt Unit}
    (hra : Cli.Reads E w.files o.first a) (hrb : Cli.Reads E w.files o.second b) (hf : FailsAs E a b) (ha : a.kind = .boundaryDefined) (hb : b.kind = .boundaryDefined)
    (hm : ¬ (ValidFaces a.boundary.points a.boundary.faces ∧ ValidFaces b.boundary.points b.boundary.faces)) :
    ∃ w', main E ("boolean".toList :: rest) w = (w', ok 1) ∧ w'.files = w.files ∧ w'.err = w.err ++ "error: out_of_range\n".toList := by
  have hm' : ¬ (ValidFaces (places a).boundary.points (places a).boundary.faces ∧ ValidFaces (places b).boundary.points (places b).boundary.faces) := by
    rw [places_valid, places_valid]; exact hm
  have hbuild : E.build a b = exn "out_of_range" := by
    obtain ⟨E0, x, hx, hr⟩ := hf fun ⟨bb, v⟩ hx => (C112_builder (a := places a) (b := places b) ha hb hm').1 bb v (hE.build a b bb v hx)
    have := Malformed.construct_malformed hm' hx
    rcases hr with ⟨st, e⟩ | ⟨m, e, hr⟩ | ⟨m, e, -⟩
    · rw [this] at e; cases e
    · rw [this] at e; cases e; exact hr
    · rw [this] at e; cases e
  obtain ⟨t, e, -⟩ := Cli.construct_eq E a b w
  rw [hbuild] at e
  have hcmd : Cli.booleanCommand E rest w = ({ w with out := w.out ++ t }, exn "out_of_range") := by
    unfold Cli.booleanCommand
    have h1 : Cli.parseOr (X := Byte) E.booleanUsage (E.parseBoolean rest) w = (w, ok o) := by rw [ho]; rfl
    have h2 := (Cli.readOrThrow_ok (E := E) (w' := w)).2 ⟨rfl, hra⟩
    have h3 := (Cli.readOrThrow_ok (E := E) (w' := w)).2 ⟨rfl, hrb⟩
    simp only [Cli.Act.bind, h1, h2, h3, e]
  refine ⟨_, C53_exception_reported E rest w _ "out_of_range" (Cli.booleanCommand E) "boolean".toList (by unfold Cli.commands; exact List.mem_cons_self) hcmd, rfl, ?_⟩
  show w.err ++ _ = w.err ++ _
  congr 1

/-- The same program, in which failures of the builder are reported as `std::out_of_range`. -/
def reporting (E : Cli.Env Byte Pt Unit (Builder P3 Unit)) : Cli.Env Byte Pt Unit (Builder P3 Unit) :=
  { E with build := fun a b => match E.build a b with | ok x => ok x | _ => exn "out_of_range" }

/-- What is assumed of the program can be had. -/
theorem C112_consistent {h : Host} {N : Numbers} {E : Cli.Env Byte Pt Unit (Builder P3 Unit)} (hE : Library h N E) :
    Library h N (reporting E) ∧ ∀ a b : Region Pt Unit, ¬ (ValidFaces a.boundary.points a.boundary.faces ∧ ValidFaces b.boundary.points b.boundary.faces) → FailsAs (reporting E) a b := by
  refine ⟨⟨hE.read, hE.write, ?_, hE.eval, hE.exact⟩, ?_⟩
  · intro a b bb v hx
    refine hE.build a b bb v ?_
    unfold reporting at hx
    dsimp only at hx
    split at hx
    · next y hy => rw [hy]; exact hx
    · cases hx
  · intro a b hv hn
    have hm' : ¬ (ValidFaces (places a).boundary.points (places a).boundary.faces ∧ ValidFaces (places b).boundary.points (places b).boundary.faces) := by
      rw [places_valid, places_valid]; exact hv
    obtain ⟨⟨o, ho⟩, hall⟩ := C112_corefine (Corefine.exactEnv fun _ => []) _ _ hm'
    refine ⟨_, o, ho, .inr (.inl ⟨_, hall o ho, ?_⟩)⟩
    unfold reporting at hn ⊢
    dsimp only at hn ⊢
    split
    · next y hy => rw [hy] at hn; exact absurd rfl (hn y)
    · rfl

/-! ## Defects -/

theorem mergePoints_length [DecidableEq P] : ∀ (ps : List P) (l : PointList P) (pts : List P) (map : List Nat), (Defects.mergePoints ps l pts map).2.length = map.length + ps.length
  | [], _, _, _ => rfl
  | p :: ps, l, pts, map => by
    rw [Defects.mergePoints]
    dsimp only
    rw [mergePoints_length ps, List.length_append, List.length_cons, List.length_cons, List.length_nil]
    omega

theorem mergeFaces_bad {map : List Nat} : ∀ (fs acc : List (Tri Nat)), ¬ ValidFaces map fs → Defects.mergeFaces map fs acc = exn "out_of_range"
  | [], _, h => absurd (fun f hf => nomatch hf) h
  | f :: fs, acc, h => by
    rw [Defects.mergeFaces]
    by_cases ha : f.a < map.length
    · rw [Coplanar.at!_good ha, ok_bind]
      by_cases hb : f.b < map.length
      · rw [Coplanar.at!_good hb, ok_bind]
        by_cases hc : f.c < map.length
        · rw [Coplanar.at!_good hc, ok_bind]
          exact mergeFaces_bad fs _ fun hv => h fun g hg => by
            rcases List.mem_cons.1 hg with rfl | hg
            · exact ⟨ha, hb, hc⟩
            · exact hv g hg
        · rw [Coplanar.at!_bad hc]; rfl
      · rw [Coplanar.at!_bad hb]; rfl
    · rw [Coplanar.at!_bad ha]; rfl

/-- **Searching for defects.** If a face has a corner that is not a vertex, the search throws `std::out_of_range`: this defect is not reported like the others. -/
theorem C112_defects (E : Defects.Env) (pts : List P3) (fs : List (Tri Nat)) (h : ¬ ValidFaces pts fs) (o : Outcome Defects.Report) : Defects.find E pts fs o ↔ o = exn "out_of_range" := by
  have e : Defects.merge pts fs = exn "out_of_range" := by
    unfold Defects.merge
    have hl := mergePoints_length pts (PointList.fresh : PointList P3).startCheck [] []
    have hb := mergeFaces_bad (map := (Defects.mergePoints pts (PointList.fresh : PointList P3).startCheck [] []).2) fs [] (by
      unfold ValidFaces at h ⊢
      rw [hl, List.length_nil, Nat.zero_add]
      exact h)
    dsimp only
    rw [hb]; rfl
  unfold Defects.find Outcomes.andThen Outcomes.one
  rw [e]
  constructor
  · rintro (⟨a, ha, -⟩ | ⟨m, hm, rfl⟩ | ⟨m, hm, -⟩)
    · cases ha
    · cases hm; rfl
    · cases hm
  · rintro rfl
    exact .inr (.inl ⟨_, rfl, rfl⟩)

/-- **The command `defects`** does not report such faces either: if the mesh that was read has one, it prints nothing but the message of the exception, ends with status 1 and leaves the files as they are. -/
theorem C112_defects_command {X B : Type} {E : Cli.Env X Pt Unit B} {rest : List Name} {w : World X} {i : Name} {r : Region Pt Unit} (hp : E.parseIn rest = ok i) (hr : Cli.Reads E w.files i r)
    (hs : ∃ F o, Defects.find F (r.boundary.points.map place) r.boundary.faces o ∧ E.defects r.boundary = o.bind fun r => ok r.counts) (hm : ¬ ValidFaces r.boundary.points r.boundary.faces) :
    main E ("defects".toList :: rest) w = ({ w with err := w.err ++ "error: out_of_range\n".toList }, ok 1) := by
  obtain ⟨F, o, ho, he⟩ := hs
  have hm' : ¬ ValidFaces (r.boundary.points.map place) r.boundary.faces := by
    unfold ValidFaces at hm ⊢
    rw [List.length_map]; exact hm
  rw [C112_defects F _ _ hm'] at ho
  subst ho
  have hc : Cli.defectsCommand E rest w = (w, exn "out_of_range") := by
    unfold Cli.defectsCommand
    rw [hp]
    have h1 : Cli.readOrThrow E i w = (w, ok r) := Cli.readOrThrow_ok.2 ⟨rfl, hr⟩
    simp only [Cli.parseOr, Cli.Act.bind, Cli.Act.lift, h1, he]
    rfl
  rw [C53_exception_reported E rest w w "out_of_range" (Cli.defectsCommand E) "defects".toList (by simp [Cli.commands]) hc]
  congr 2

/-! ## A tetrahedron, one of whose faces refers to a fifth vertex -/

def lacking : Soup P3 Unit := ⟨[⟨0, 0, 0⟩, ⟨1, 0, 0⟩, ⟨0, 1, 0⟩, ⟨0, 0, 1⟩], [⟨0, 2, 1⟩, ⟨0, 1, 3⟩, ⟨1, 2, 4⟩, ⟨2, 0, 3⟩], [(), (), (), ()]⟩

theorem lacking_bad : ¬ ValidFaces lacking.points lacking.faces := fun h => absurd (h ⟨1, 2, 4⟩ (by simp [lacking])).2.2 (by decide)

/-- Combining it with itself. -/
example (E : Corefine.Env) : ∀ o, Corefine.construct E lacking lacking o → o = exn "out_of_range" := (C112_corefine E lacking lacking fun h => lacking_bad h.1).2

example : Breaks ⟨.boundaryDefined, lacking⟩ ⟨.boundaryDefined, lacking⟩ := (C112_builder rfl rfl fun h => lacking_bad h.1).2

/-- Its union with the empty region throws; its intersection with the empty region is empty. -/
example : (∃ bb, Builder.make (fun _ _ => exn "not called") (fullOrEmpty false) ⟨.boundaryDefined, lacking⟩ = ok bb ∧ bb.run Op.union true = exn "out_of_range") ∧
    ∃ bb, Builder.make (fun _ _ => exn "not called") (fullOrEmpty false) ⟨.boundaryDefined, lacking⟩ = ok bb ∧ bb.run Op.intersection true = ok (fullOrEmpty false) :=
  ⟨(C112_trivial _ rfl lacking_bad Op.union true false).1, (C112_trivial _ rfl lacking_bad Op.intersection true false).1⟩

example (E : Defects.Env) : Defects.find E lacking.points lacking.faces (exn "out_of_range") := (C112_defects E _ _ lacking_bad _).2 rfl

end Kigumi.Props

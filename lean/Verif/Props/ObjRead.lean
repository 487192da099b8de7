import Verif.Proofs.TextObjRead
import Verif.Props.MeshFile

/-!
# C98: which OBJ files are read, and as what

`Spec/ObjRead` gives the rules.
-/
namespace Kigumi.Props
open Kigumi Kigumi.Text IS Ply Mesh

variable {F D : Type}

/-- **Exactly the texts that keep to the rules are read**; there is only one mesh to be read, and if a text does not keep to them, the reader returns false and the target is kept. -/
theorem C98_obj (N : Doubles F) (dflt : D) (t : List Char) (target : Soup (P3 F) D) :
    (∃ ps fs k, TakenAsObj N t ps fs ∧ readObj N dflt (of t) target = (true, ⟨ps, fs.flatMap fan, List.replicate (fs.flatMap fan).length dflt⟩, k)) ∨
    (¬ ∃ ps fs, TakenAsObj N t ps fs) ∧ ∃ k, readObj N dflt (of t) target = (false, target, k) := by
  have hl : LinesOf t (lines (of t)) := Ply.linesOf t
  have key := objLoop_exact N dflt ((lines (of t)).filter significant) (fun l hl => (List.mem_filter.1 hl).2) ⟨Soup.empty, 0⟩
  rw [objLoop_significant] at key
  rcases key with ⟨ps, fs, b, h1, h2, h3⟩ | ⟨h1, h2⟩
  · refine .inl ⟨ps, fs, b.stored, ⟨_, hl, h1⟩, ?_⟩
    unfold readObj
    rw [if_neg (by simp [of]), h2]
    dsimp only
    rw [if_pos rfl, h3]
    simp [Soup.empty]
  · refine .inr ⟨?_, ?_⟩
    · rintro ⟨ps, fs, ls, hl', h⟩
      rw [← lines_of hl'] at h
      exact h1 ⟨ps, fs, h⟩
    · unfold readObj
      rw [if_neg (by simp [of])]
      dsimp only
      rw [if_neg (by simp [h2])]
      exact ⟨_, rfl⟩

/-- The mesh is determined by the rules. -/
theorem C98_unique {N : Doubles F} {t : List Char} {ps ps' : List (P3 F)} {fs fs' : List (List Nat)} (h : TakenAsObj N t ps fs) (h' : TakenAsObj N t ps' fs') : ps = ps' ∧ fs = fs' := by
  obtain ⟨ls, hl, h⟩ := h
  obtain ⟨ls', hl', h'⟩ := h'
  rw [← lines_of hl] at h
  rw [← lines_of hl'] at h'
  exact objTaken_unique h h'

/-- A text that keeps to the rules is read with its points and its polygons, cut into triangles. -/
theorem C98_taken {N : Doubles F} (dflt : D) {t : List Char} {ps : List (P3 F)} {fs : List (List Nat)} (h : TakenAsObj N t ps fs) (target : Soup (P3 F) D) :
    ∃ k, readObj N dflt (of t) target = (true, ⟨ps, fs.flatMap fan, List.replicate (fs.flatMap fan).length dflt⟩, k) := by
  rcases C98_obj N dflt t target with ⟨ps', fs', k, h1, h2⟩ | ⟨h1, -⟩
  · obtain ⟨rfl, rfl⟩ := C98_unique h h1
    exact ⟨k, h2⟩
  · exact absurd ⟨ps, fs, h⟩ h1

theorem taken_lines {N : Doubles F} {n : Nat} {W : List (List (List Char))} {ps : List (P3 F)} {fs : List (List Nat)} (h : ObjTaken N n W ps fs) {l : List (List Char)} (hl : l ∈ W) :
    (∀ ws, l = "v".toList :: ws → ∃ p, IsPoint N ws p) ∧ ∀ ws, l = "f".toList :: ws → ∃ m f, FaceWords m ws f := by
  induction h with
  | nil n => cases hl
  | vertex hp h ih =>
    rcases List.mem_cons.1 hl with rfl | hl
    · exact ⟨fun ws e => by cases e; exact ⟨_, hp⟩, fun ws e => by injection e with e _; exact absurd e (by decide)⟩
    · exact ih hl
  | face hf h ih =>
    rcases List.mem_cons.1 hl with rfl | hl
    · exact ⟨fun ws e => by injection e with e _; exact absurd e (by decide), fun ws e => by cases e; exact ⟨_, _, hf⟩⟩
    · exact ih hl
  | other hv hf h ih =>
    rcases List.mem_cons.1 hl with rfl | hl
    · exact ⟨fun ws e => by cases e; exact absurd rfl hv, fun ws e => by cases e; exact absurd rfl hf⟩
    · exact ih hl

theorem significant_of_words {l w : List Char} {ws : List (List Char)} (h : words l = w :: ws) (hh : ∀ c r, w = c :: r → c ≠ '#') : significant l = true := by
  have h1 := at_of l
  rw [h] at h1
  obtain ⟨a, r, e, ha, ht, -⟩ := h1.cons
  have e : l = a ++ (w ++ r) := congrArg IS.rest e
  subst e
  cases w with
  | nil => exact absurd rfl ht.1
  | cons c w =>
    unfold significant
    rw [dropWhile_all ha, List.cons_append, List.dropWhile_cons, if_neg (by simp [ht.2 c (by simp)])]
    simpa using hh c w rfl

/-- **A vertex without three coordinates** makes the reader fail. -/
theorem C98_point (N : Doubles F) (dflt : D) {t : List Char} {ls : List (List Char)} (ht : LinesOf t ls) {l : List Char} (hl : l ∈ ls) {ws : List (List Char)} (hw : words l = "v".toList :: ws) (hp : ∀ p, ¬ IsPoint N ws p) (target : Soup (P3 F) D) :
    ∃ k, readObj N dflt (of t) target = (false, target, k) := by
  rcases C98_obj N dflt t target with ⟨ps, fs, k, ⟨ls', hl', h⟩, -⟩ | ⟨-, h⟩
  · rw [← lines_of hl', lines_of ht] at h
    have hsig : significant l = true := significant_of_words hw fun c r e => by injection e with e _; rw [← e]; decide
    obtain ⟨p, h'⟩ := (taken_lines h (List.mem_map.2 ⟨l, List.mem_filter.2 ⟨hl, hsig⟩, rfl⟩)).1 ws hw
    exact absurd h' (hp p)
  · exact h

/-- **A reference to vertex 0** after other references makes the reader fail. -/
theorem C98_zero (N : Doubles F) (dflt : D) {t : List Char} {ls : List (List Char)} (ht : LinesOf t ls) {l : List Char} (hl : l ∈ ls) {refs ws : List (List Char)} {w : List Char} (hw : words l = "f".toList :: (refs ++ w :: ws)) (hr : ∀ r ∈ refs, ∃ v, Leads r v) (h0 : Leads w 0)
    (target : Soup (P3 F) D) : ∃ k, readObj N dflt (of t) target = (false, target, k) := by
  rcases C98_obj N dflt t target with ⟨ps, fs, k, ⟨ls', hl', h⟩, -⟩ | ⟨-, h⟩
  · rw [← lines_of hl', lines_of ht] at h
    have hsig : significant l = true := significant_of_words hw fun c r e => by injection e with e _; rw [← e]; decide
    obtain ⟨m, f, h'⟩ := (taken_lines h (List.mem_map.2 ⟨l, List.mem_filter.2 ⟨hl, hsig⟩, rfl⟩)).2 _ hw
    exfalso
    clear hw h hsig
    induction refs generalizing f with
    | nil =>
      cases h' with
      | stop k => exact k 0 h0
      | ref k hi _ =>
        obtain rfl := leads_unique k h0
        rcases hi with ⟨hi, -⟩ | ⟨hi, -⟩ <;> exact absurd hi (by decide)
    | cons r refs ih =>
      obtain ⟨v, hv⟩ := hr r (by simp)
      cases h' with
      | stop k => exact k v hv
      | ref _ _ h' => exact ih (fun x hx => hr x (by simp [hx])) _ h'
  · exact h

/-- OBJ files keep to the rules. -/
theorem C98_files {N : Doubles F} {t : List Char} {ps : List (P3 F)} {fs : List (List Nat)} (h : IsObj N t ps fs) (hps : ps.length < 2 ^ 64) : ∃ fs', TakenAsObj N t ps fs' ∧ fs'.flatMap fan = fs.flatMap fan := by
  obtain ⟨k, hk⟩ := C89_obj N () h hps Soup.empty
  rcases C98_obj N () t Soup.empty with ⟨ps', fs', k', h1, h2⟩ | ⟨-, k', h2⟩
  · rw [hk] at h2
    simp only [Prod.mk.injEq, true_and, Soup.mk.injEq] at h2
    obtain ⟨⟨rfl, e, -⟩, -⟩ := h2
    exact ⟨fs', h1, e.symm⟩
  · rw [hk] at h2
    cases h2

/-! Concrete texts. -/

/-- Numbers may be followed by anything; a face that reaches back too far refers to a vertex that does not exist. -/
example : ∃ k, readObj natDoubles () (of "v 0 0 0\nf 1x 1;2 -2\n".toList) Soup.empty = (true, ⟨[(0, 0, 0)], [⟨0, 0, 2 ^ 64 - 1⟩], [()]⟩, k) := ⟨4, by decide +kernel⟩

example (target : Soup (P3 Nat) Unit) : ∃ k, readObj natDoubles () (of "v 1 2\nf 1 1 1\n".toList) target = (false, target, k) :=
  C98_point natDoubles () (ls := ["v 1 2".toList, "f 1 1 1".toList]) ⟨by decide +kernel, .inl (by decide +kernel)⟩ (List.mem_cons_self ..) (ws := ["1".toList, "2".toList]) (by decide +kernel) (by
    rintro p ⟨x, y, z, r, e, -⟩
    simp at e) target

example (target : Soup (P3 Nat) Unit) : ∃ k, readObj natDoubles () (of "v 1 2 3\nf 1/1 1 0/7 x\n".toList) target = (false, target, k) :=
  C98_zero natDoubles () (ls := ["v 1 2 3".toList, "f 1/1 1 0/7 x".toList]) ⟨by decide +kernel, .inl (by decide +kernel)⟩ (List.mem_cons_of_mem _ (List.mem_cons_self ..)) (refs := ["1/1".toList, "1".toList]) (w := "0/7".toList) (ws := ["x".toList]) (by decide +kernel)
    (by
      intro r hr
      rcases List.mem_cons.1 hr with rfl | hr
      · exact ⟨1, "1".toList, "/1".toList, by decide, by intro c r e; injection e with e _; rw [← e]; decide, by decide, by decide, "1".toList, by decide, by decide, .inl ⟨.inl rfl, by decide⟩⟩
      · obtain rfl := List.mem_singleton.1 hr
        exact ⟨1, "1".toList, [], by decide, by simp, by decide, by decide, "1".toList, by decide, by decide, .inl ⟨.inl rfl, by decide⟩⟩)
    ⟨"0".toList, "/7".toList, by decide, by intro c r e; injection e with e _; rw [← e]; decide, by decide, by decide, "0".toList, by decide, by decide, .inl ⟨.inl rfl, by decide⟩⟩ target

end Kigumi.Props

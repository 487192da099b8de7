import Verif.Proofs.TextOffRead
import Verif.Props.MeshFile
import Verif.Props.TextIO

/-!
# C101: which OFF files are read, and as what

`Spec/OffRead` gives the rules.
-/
namespace Kigumi.Props
open Kigumi Kigumi.Text IS Ply Mesh

variable {F D : Type}

/-- A text that keeps to the rules is read with its points and its polygons, cut into triangles. -/
theorem C101_taken {N : Doubles F} (dflt : D) {t : List Char} {ps : List (P3 F)} {fs : List (List Nat)} (h : TakenAsOff N t ps fs) (target : Soup (P3 F) D) :
    ∃ k, readOff N dflt (of t) target = (true, ⟨ps, fs.flatMap fan, List.replicate (fs.flatMap fan).length dflt⟩, k) := by
  obtain ⟨ls, sl, cl, vl, fl, hl, hf, hsg, hcl, hps, hfs⟩ := h
  have hsig : ∀ l ∈ sl :: cl :: (vl ++ fl), significant l = true := by
    intro l hl
    rw [← hf] at hl
    exact (List.mem_filter.1 hl).2
  have h1 : offLine N dflt sl (⟨.signature, 0, 0, Soup.empty, 0⟩ : Off F D) = (true, ⟨.numbers, 0, 0, Soup.empty, 0⟩) := by
    obtain ⟨h1, h2⟩ := start_line (hsig sl (by simp))
    rcases offSignature_words h2 with ⟨-, h3, h4⟩ | ⟨h3, -⟩
    · unfold offLine
      dsimp only
      rw [if_neg (by simp [h1])]
      rw [if_neg (by simp [h3]), if_neg (by simp [h4])]
    · exact absurd hsg h3
  have h2 := offLine_counts N dflt (hsig cl (by simp)) (a := (⟨.numbers, 0, 0, Soup.empty, 0⟩ : Off F D)) rfl hcl
  obtain ⟨b, h3, h4, h5, h6⟩ := offLoop_vertices' (N := N) dflt (fl := fl) (fun l hl => hsig l (by simp [hl])) hps ⟨if vl.length = 0 then afterVertices fl.length else .vertices, vl.length, fl.length, Soup.empty, 0⟩ rfl rfl
  obtain ⟨c, h7, h8, h9⟩ := offLoop_polygons N dflt (fun l hl => hsig l (by simp [hl])) hfs b h4 h5
  refine ⟨c.stored, ?_⟩
  unfold readOff
  rw [if_neg (by simp [of]), lines_of hl, ← offLoop_significant, hf, offLoop_cons h1, offLoop_cons h2, h3, h7]
  dsimp only
  rw [if_neg (by simp), if_neg (by simp [h8]), h9, h6]
  simp [Soup.empty]

theorem forall₂_iff {A B : Type} {R S : A → B → Prop} (h : ∀ a b, R a b ↔ S a b) {as : List A} {bs : List B} (hr : List.Forall₂ R as bs) : List.Forall₂ S as bs := by
  induction hr with
  | nil => exact .nil
  | cons h1 _ ih => exact .cons ((h _ _).1 h1) ih

/-- **Exactly the texts that keep to the rules are read**; if a text does not keep to them, the reader returns false and the target is kept. -/
theorem C101_off (N : Doubles F) (dflt : D) (t : List Char) (target : Soup (P3 F) D) :
    (∃ ps fs k, TakenAsOff N t ps fs ∧ readOff N dflt (of t) target = (true, ⟨ps, fs.flatMap fan, List.replicate (fs.flatMap fan).length dflt⟩, k)) ∨
    (¬ ∃ ps fs, TakenAsOff N t ps fs) ∧ ∃ k, readOff N dflt (of t) target = (false, target, k) := by
  rcases hr : readOff N dflt (of t) target with ⟨o, r, k⟩
  cases o with
  | true =>
    left
    obtain ⟨ls, sl, rest, hl, hf, hsg⟩ := C89_off_signature N dflt hr
    obtain ⟨sg, l, nv, nf, vl, fl, ps, polys, h1, h2, rfl, rfl, h3, h4, -⟩ := C50_off N dflt t target r k hr
    rw [lines_of hl, hf] at h1
    obtain ⟨rfl, rfl⟩ := List.cons.inj h1
    have ht : TakenAsOff N t ps polys := ⟨ls, sl, l, vl, fl, hl, hf, hsg, (countsLine_iff ..).1 h2, forall₂_iff (pointLine_iff N) h3, forall₂_iff polygonLine_iff h4⟩
    obtain ⟨k', hk⟩ := C101_taken dflt ht target
    exact ⟨ps, polys, k', ht, by rw [← hr, hk]⟩
  | false =>
    have hk := C47_off N dflt (of t) target (by rw [hr])
    rw [hr] at hk
    refine .inr ⟨?_, k, by rw [← hk]⟩
    rintro ⟨ps, fs, ht⟩
    obtain ⟨k', hk'⟩ := C101_taken dflt ht target
    rw [hr] at hk'
    cases hk'

theorem isReal_unique {N : Doubles F} {w : List Char} {x y : F} (hx : IsReal N w x) (hy : IsReal N w y) : x = y := by
  rcases hx with ⟨r, rfl, hx⟩ | ⟨hx', hx⟩
  · rcases hy with ⟨r', e, hy⟩ | ⟨hy', -⟩
    · cases e
      rw [hx] at hy
      exact Option.some.inj hy
    · exact absurd rfl (hy' r)
  · rcases hy with ⟨r', rfl, -⟩ | ⟨-, hy⟩
    · exact absurd rfl (hx' r')
    · rw [hx] at hy
      exact Option.some.inj hy

theorem isPoint_unique {N : Doubles F} {ws : List (List Char)} {p q : P3 F} (hp : IsPoint N ws p) (hq : IsPoint N ws q) : p = q := by
  obtain ⟨x, y, z, r, rfl, h1, h2, h3⟩ := hp
  obtain ⟨x', y', z', r', e, h1', h2', h3'⟩ := hq
  cases e
  exact Prod.ext (isReal_unique h1 h1') (Prod.ext (isReal_unique h2 h2') (isReal_unique h3 h3'))

theorem forall₂_unique {A B : Type} {R : A → B → Prop} (h : ∀ a b b', R a b → R a b' → b = b') {as : List A} {bs bs' : List B} (hr : List.Forall₂ R as bs) (hr' : List.Forall₂ R as bs') : bs = bs' := by
  induction hr generalizing bs' with
  | nil => cases hr'; rfl
  | cons h1 _ ih =>
    cases hr' with
    | cons h2 hr' => rw [h _ _ _ h1 h2, ih hr']

/-- The mesh is determined by the rules, polygon by polygon. -/
theorem C101_unique {N : Doubles F} {t : List Char} {ps ps' : List (P3 F)} {fs fs' : List (List Nat)} (h : TakenAsOff N t ps fs) (h' : TakenAsOff N t ps' fs') : ps = ps' ∧ fs = fs' := by
  obtain ⟨ls, sl, cl, vl, fl, hl, hf, -, hcl, hps, hfs⟩ := h
  obtain ⟨ls', sl', cl', vl', fl', hl', hf', -, hcl', hps', hfs'⟩ := h'
  rw [← lines_of hl, lines_of hl', hf'] at hf
  injection hf with _ hf
  injection hf with e hf
  subst e
  have e := starts_unique hcl hcl' rfl
  simp at e
  obtain ⟨rfl, rfl⟩ := List.append_inj hf e.1.symm
  exact ⟨forall₂_unique (R := fun l p => IsPoint N (words l) p) (fun _ _ _ => isPoint_unique) hps hps', forall₂_unique (R := fun l f => Starts l (f.length :: f)) (fun _ _ _ => starts_polygon_unique) hfs hfs'⟩

/-- **No line may be missing, and none be too many**: if all lines of a text that is read are the first lines of another one, the other one is not read unless it has only blank lines and comments in addition. -/
theorem C101_lines {N : Doubles F} {t t' : List Char} {ls ls' : List (List Char)} (hl : LinesOf t ls) (hl' : LinesOf t' ls') {ps ps' : List (P3 F)} {fs fs' : List (List Nat)} (h : TakenAsOff N t ps fs) (h' : TakenAsOff N t' ps' fs')
    (hp : ls.filter significant <+: ls'.filter significant) : ls.filter significant = ls'.filter significant := by
  obtain ⟨ms, sl, cl, vl, fl, hm, hf, -, hcl, -⟩ := h
  obtain ⟨ms', sl', cl', vl', fl', hm', hf', -, hcl', -⟩ := h'
  rw [← lines_of hm, lines_of hl] at hf
  rw [← lines_of hm', lines_of hl'] at hf'
  refine hp.eq_of_length ?_
  rw [hf, hf'] at hp ⊢
  obtain ⟨r, e⟩ := hp
  simp only [List.cons_append] at e
  injection e with _ e
  injection e with e _
  subst e
  have e := starts_unique hcl hcl' rfl
  simp at e
  simp [e.1, e.2]

/-- **The first two numbers must be there**: if the second line does not start with two numbers, the text is not read. -/
theorem C101_counts (N : Doubles F) (dflt : D) {t : List Char} {ls : List (List Char)} (hl : LinesOf t ls) {sl cl : List Char} {rest : List (List Char)} (hf : ls.filter significant = sl :: cl :: rest) (hc : ∀ a b, ¬ Starts cl [a, b]) (target : Soup (P3 F) D) :
    ∃ k, readOff N dflt (of t) target = (false, target, k) := by
  rcases C101_off N dflt t target with ⟨ps, fs, k, ⟨ms, sl', cl', vl, fl, hm, hf', -, hcl, -⟩, -⟩ | ⟨-, h⟩
  · rw [← lines_of hm, lines_of hl, hf] at hf'
    injection hf' with _ hf'
    injection hf' with e _
    subst e
    exact absurd hcl (hc _ _)
  · exact h

/-- OFF files keep to the rules. -/
theorem C101_files {N : Doubles F} {t : List Char} {ps : List (P3 F)} {fs : List (List Nat)} (h : IsOff N t ps fs) : TakenAsOff N t ps fs := by
  obtain ⟨ls, sl, cl, vl, fl, x, y, rest, hl, hf, hsg, hcl, hx, hy, hps, hfs⟩ := h
  refine ⟨ls, sl, cl, vl, fl, hl, hf, hsg, ?_, hps, hfs.imp fun l f hlf => ?_⟩
  · rw [← countsLine_iff]
    have h1 := at_of cl
    rw [hcl] at h1
    obtain ⟨s1, e1, h2⟩ := h1.readSize hx 0
    obtain ⟨s2, e2, h3⟩ := h2.readSize hy 0
    unfold CountsLine
    rw [e1]
    dsimp only
    rw [e2]
    exact ⟨rfl, rfl, h3.fail⟩
  · rw [← polygonLine_iff]
    obtain ⟨c, items, rest, hw, hc, hi⟩ := hlf
    have h1 := at_of l
    rw [hw] at h1
    obtain ⟨s1, e1, h2⟩ := h1.readSize hc 0
    obtain ⟨s2, e2, h3⟩ := h2.readIndices hi
    have e := hi.length_eq
    unfold PolygonLine
    rw [e1, ← e]
    dsimp only
    rw [e2]
    exact ⟨rfl, rfl, h3.fail⟩

/-! Concrete texts. -/

/-- Numbers with signs need nothing between them, negative ones are taken modulo `2 ^ 64`, and anything may follow. -/
theorem C101_glued : ∃ k, readOff natDoubles () (of "OFF # x\n1+1foo\n\n7 8 9 10\n3+0-1 0;5\n".toList) Soup.empty = (true, ⟨[(7, 8, 9)], [⟨0, 2 ^ 64 - 1, 0⟩], [()]⟩, k) := ⟨4, by decide +kernel⟩

example : Starts "3+0-1 0;5".toList [3, 0, 2 ^ 64 - 1, 0] := by
  have h : ((readIndices 4 ⟨"3+0-1 0;5".toList, false, false⟩).1.fail = false) := by decide +kernel
  have := read_starts 4 h
  rwa [show (readIndices 4 ⟨"3+0-1 0;5".toList, false, false⟩).2 = [3, 0, 2 ^ 64 - 1, 0] by decide +kernel] at this

example (target : Soup (P3 Nat) Unit) : ∃ k, readOff natDoubles () (of "OFF\n1 x\n0 0 0\n".toList) target = (false, target, k) :=
  C101_counts natDoubles () (ls := ["OFF".toList, "1 x".toList, "0 0 0".toList]) ⟨by decide +kernel, .inl (by decide +kernel)⟩ (sl := "OFF".toList) (cl := "1 x".toList) (rest := ["0 0 0".toList]) (by decide +kernel) (by
    intro a b h
    obtain ⟨s, e, hs⟩ := starts_read h false (by simp)
    have h' : (readIndices 2 ⟨"1 x".toList, false, false⟩).1.fail = true := by decide +kernel
    change readIndices 2 ⟨"1 x".toList, false, false⟩ = _ at e
    rw [e, hs] at h'
    cases h') target

end Kigumi.Props

import Verif.Spec.OffRead
import Verif.Proofs.TextObjRead
import Verif.Proofs.TextCounts

/-!
# Reading numbers from lines of OFF files
-/
namespace Kigumi.Text
open Kigumi IS Ply Mesh

variable {F D : Type}

theorem sentry_any (l : List Char) : (∃ r, sentry ⟨l, false, false⟩ = r ∧ r.fail = true) ∨ ∃ sp r, l = sp ++ r ∧ Spaces sp ∧ sentry ⟨l, false, false⟩ = ⟨r, false, false⟩ := by
  unfold sentry
  rw [if_neg (by simp [good])]
  dsimp only
  split
  · exact .inl ⟨_, rfl, rfl⟩
  · exact .inr ⟨l.takeWhile isSpace, _, List.takeWhile_append_dropWhile.symm, takeWhile_prop _ _, rfl⟩

theorem wrapped_scan {w r : List Char} {n : Nat} (h : IsNatOrWrapped w n) (hr : StopDigit r) : ∃ neg ds, scanInt (w ++ r) = (neg, ds, r) ∧ ds ≠ [] ∧ decVal ds < 2 ^ 64 ∧ n = if neg = true then (2 ^ 64 - decVal ds) % 2 ^ 64 else decVal ds := by
  rcases h with ⟨hn, ds, hw, hne, hd, hv⟩ | ⟨ds', m, rfl, ⟨hn, ds, hw, hne, hd, hv⟩, hp, rfl⟩
  · rw [digitsValue_eq] at hv
    refine ⟨false, ds, ?_, hne, by omega, by simp [hv]⟩
    rcases hw with rfl | rfl
    · exact scanInt_digits hne hd hr
    · exact scanInt_plus hd hr
  · rw [digitsValue_eq] at hv
    rcases hw with rfl | rfl
    · exact ⟨true, ds', scanInt_neg hd hr, hne, by omega, by simp [hv]⟩
    · exact absurd rfl (hp ds)

theorem wrapped_head {w : List Char} {n : Nat} (h : IsNatOrWrapped w n) : w ≠ [] ∧ ∀ c t, w = c :: t → isSpace c = false := by
  have dig : ∀ ds : List Char, ds ≠ [] → (∀ c ∈ ds, isDigit c = true) → ds ≠ [] ∧ ∀ c t, ds = c :: t → isSpace c = false := fun ds h1 h2 => ⟨h1, fun c t e => isDigit_not_space (h2 c (by rw [e]; simp))⟩
  rcases h with ⟨-, ds, hw, hne, hd, -⟩ | ⟨ds', m, rfl, -⟩
  · rcases hw with rfl | rfl
    · exact dig w hne hd
    · exact ⟨by simp, fun c t e => by injection e with e _; rw [← e]; decide⟩
  · exact ⟨by simp, fun c t e => by injection e with e _; rw [← e]; decide⟩

/-- A number is read. -/
theorem readSize_number {sp w rest : List Char} {n : Nat} (hs : Spaces sp) (hw : IsNatOrWrapped w n) (hr : StopDigit rest) (old : Nat) : readSize ⟨sp ++ (w ++ rest), false, false⟩ old = (⟨rest, rest.isEmpty, false⟩, n) := by
  obtain ⟨h1, h2⟩ := wrapped_head hw
  obtain ⟨neg, ds, e, h3, h4, rfl⟩ := wrapped_scan hw hr
  unfold readSize
  rw [sentry_of_tok hs h1 h2]
  dsimp only
  rw [if_neg (by simp), e]
  dsimp only
  rw [if_neg h3, if_neg (by omega)]

/-- Only numbers are read. -/
theorem number_readSize {l : List Char} {old : Nat} (h : (readSize ⟨l, false, false⟩ old).1.fail = false) : ∃ sp w rest, l = sp ++ (w ++ rest) ∧ Spaces sp ∧ IsNatOrWrapped w (readSize ⟨l, false, false⟩ old).2 ∧ StopDigit rest ∧ (readSize ⟨l, false, false⟩ old).1 = ⟨rest, rest.isEmpty, false⟩ := by
  rcases sentry_any l with ⟨r, e, hf⟩ | ⟨sp, r, rfl, hsp, e⟩
  · exfalso
    unfold readSize at h
    dsimp only at h
    rw [e, if_pos hf, hf] at h
    cases h
  · unfold readSize at h ⊢
    dsimp only at h ⊢
    rw [e, if_neg (by simp)] at h ⊢
    dsimp only at h ⊢
    obtain ⟨sg, e', hd, hst, hsg⟩ := scanInt_split r
    generalize scanInt r = q at *
    obtain ⟨neg, ds, suf⟩ := q
    dsimp only at h e' hd hst hsg ⊢
    split at h
    · cases h
    next hne =>
    split at h
    · cases h
    next hlt =>
    rw [if_neg hne, if_neg hlt]
    refine ⟨sp, sg ++ ds, suf, by rw [e', List.append_assoc], hsp, ?_, hst, rfl⟩
    dsimp only
    rcases hsg with ⟨rfl, rfl⟩ | ⟨hsg, rfl⟩
    · refine .inr ⟨ds, decVal ds, rfl, ⟨by omega, ds, .inl rfl, hne, hd, digitsValue_eq ds⟩, ?_, by simp⟩
      rintro r rfl
      exact absurd (hd '+' (by simp)) (by decide)
    · refine .inl ⟨by simp; omega, ds, ?_, hne, hd, by simp [digitsValue_eq]⟩
      rcases hsg with rfl | rfl
      · exact .inr rfl
      · exact .inl rfl

theorem readIndices_cons (n : Nat) (s : IS) : readIndices (n + 1) s = ((readIndices n (s.readSize 0).1).1, (s.readSize 0).2 :: (readIndices n (s.readSize 0).1).2) := rfl

theorem readSize_over {s : IS} (h : s.eof = true) (old : Nat) : (s.readSize old).1.fail = true := by
  have : s.sentry = s.setFail := by unfold sentry; rw [if_pos (by simp [good, h])]
  unfold IS.readSize
  dsimp only
  rw [this, if_pos (show s.setFail.fail = true from rfl)]
  rfl

theorem starts_nil {ns : List Nat} (h : Starts [] ns) : ns = [] := by
  generalize e : ([] : List Char) = l at h
  cases h with
  | nil l => rfl
  | cons hs hw hr h =>
    exfalso
    have := (wrapped_head hw).1
    simp at e
    exact this e.2.1

/-- Numbers at the start are read, -/
theorem starts_read {l : List Char} {ns : List Nat} (h : Starts l ns) (e : Bool) (he : e = true → l = []) : ∃ s, readIndices ns.length ⟨l, e, false⟩ = (s, ns) ∧ s.fail = false := by
  induction h generalizing e with
  | nil l => exact ⟨_, rfl, rfl⟩
  | @cons sp w rest n ns hs hw hr h ih =>
    obtain rfl : e = false := by
      cases e with
      | false => rfl
      | true =>
        have := he rfl
        simp at this
        exact absurd this.2.1 (wrapped_head hw).1
    obtain ⟨s, h1, h2⟩ := ih rest.isEmpty (by simp)
    refine ⟨s, ?_, h2⟩
    rw [List.length_cons, readIndices_cons, readSize_number hs hw hr, h1]

/-- and nothing else. -/
theorem read_starts (n : Nat) {l : List Char} {e : Bool} (h : (readIndices n ⟨l, e, false⟩).1.fail = false) : Starts l (readIndices n ⟨l, e, false⟩).2 := by
  induction n generalizing l e with
  | zero => exact .nil l
  | succ n ih =>
    rw [readIndices_cons] at h ⊢
    dsimp only at h ⊢
    cases e with
    | true => rw [readIndices_failed n (readSize_over rfl 0)] at h; cases h
    | false =>
      by_cases hf : (readSize ⟨l, false, false⟩ 0).1.fail = true
      · rw [readIndices_failed n hf] at h; cases h
      obtain ⟨sp, w, rest, e1, h1, h2, h3, h4⟩ := number_readSize (by simpa using hf)
      rw [h4] at h ⊢
      generalize (readSize ⟨l, false, false⟩ 0).2 = v at h2 ⊢
      rw [e1]
      exact .cons h1 h2 h3 (ih h)

theorem starts_unique {l : List Char} {a b : List Nat} (ha : Starts l a) (hb : Starts l b) (h : a.length = b.length) : a = b := by
  obtain ⟨s, e1, -⟩ := starts_read ha false (by simp)
  obtain ⟨s', e2, -⟩ := starts_read hb false (by simp)
  rw [h, e2] at e1
  exact (Prod.mk.inj e1).2.symm

theorem starts_take {l : List Char} {a : List Nat} (h : Starts l a) (n : Nat) : Starts l (a.take n) := by
  induction h generalizing n with
  | nil l => simpa using Starts.nil l
  | cons hs hw hr h ih =>
    cases n with
    | zero => exact .nil _
    | succ n => exact .cons hs hw hr (ih n)

theorem starts_polygon_unique {l : List Char} {a b : List Nat} (ha : Starts l (a.length :: a)) (hb : Starts l (b.length :: b)) : a = b := by
  have h := starts_unique (starts_take ha 1) (starts_take hb 1) rfl
  simp at h
  have := starts_unique ha hb (by simp [h])
  exact (List.cons.inj this).2

/-! ## Lines -/

theorem countsLine_iff (l : List Char) (nv nf : Nat) : CountsLine l nv nf ↔ Starts l [nv, nf] := by
  constructor
  · rintro ⟨rfl, rfl, h⟩
    exact read_starts 2 h
  · intro h
    obtain ⟨s, e, hf⟩ := starts_read h false (by simp)
    rw [List.length_cons, List.length_cons, List.length_nil, readIndices_cons, readIndices_cons] at e
    obtain ⟨e1, e2⟩ := Prod.mk.inj e
    injection e2 with e2 e3
    injection e3 with e3
    exact ⟨e2, e3, by rw [← e1] at hf; exact hf⟩

theorem polygonLine_iff (l : List Char) (f : List Nat) : PolygonLine l f ↔ Starts l (f.length :: f) := by
  constructor
  · rintro ⟨h1, h2, h3⟩
    have := read_starts (f.length + 1) (l := l) (e := false) h3
    rw [readIndices_cons] at this
    change Starts l (((of l).readSize 0).2 :: (readIndices f.length ((of l).readSize 0).1).2) at this
    rw [h2, h1] at this
    exact this
  · intro h
    obtain ⟨s, e, hf⟩ := starts_read h false (by simp)
    rw [List.length_cons, readIndices_cons] at e
    obtain ⟨e1, e2⟩ := Prod.mk.inj e
    injection e2 with e2 e3
    exact ⟨e2, Prod.ext rfl e3, by rw [← e1] at hf; exact hf⟩

theorem pointLine_iff (N : Doubles F) (l : List Char) (p : P3 F) : PointLine N l p ↔ IsPoint N (words l) p :=
  ⟨fun h => readPoint_exact (at_of l) h, fun h => At.readPoint (at_of l) h⟩

theorem offLine_counts (N : Doubles F) (dflt : D) {l : List Char} (hl : significant l = true) {a : Off F D} (ha : a.state = .numbers) {nv nf : Nat} (h : Starts l [nv, nf]) :
    offLine N dflt l a = (true, { a with nv := nv, nf := nf, state := if nv = 0 then afterVertices nf else .vertices }) := by
  obtain ⟨h1, h2, h3⟩ := (countsLine_iff l nv nf).2 h
  obtain ⟨w, c, r, hw, hc, hh, rfl⟩ := significant_cases hl
  unfold offLine
  dsimp only
  rw [optHashEof_tok hw hc hh, if_neg (by simp), show (⟨c :: r, false, true⟩ : IS).clear = ⟨c :: r, false, false⟩ from rfl, readSize_front (sentry_front hw hc r), ha]
  dsimp only
  rw [if_neg (by simp [h3]), h1, h2]

theorem offLine_polygon (N : Doubles F) (dflt : D) {l : List Char} (hl : significant l = true) {a : Off F D} (ha : a.state = .faces) {f : List Nat} (h : Starts l (f.length :: f)) :
    offLine N dflt l a = (true, { a with soup := addFaces a.soup dflt (fanFaces f), stored := a.stored + f.length, nf := a.nf - 1, state := if a.nf - 1 = 0 then .done else .faces }) := by
  obtain ⟨h1, h2, h3⟩ := (polygonLine_iff l f).2 h
  obtain ⟨w, c, r, hw, hc, hh, rfl⟩ := significant_cases hl
  unfold offLine
  dsimp only
  rw [optHashEof_tok hw hc hh, if_neg (by simp), show (⟨c :: r, false, true⟩ : IS).clear = ⟨c :: r, false, false⟩ from rfl, readSize_front (sentry_front hw hc r), ha]
  dsimp only
  rw [h1, h2]
  dsimp only
  rw [if_neg (by simp [h3])]

theorem offLoop_polygons (N : Doubles F) (dflt : D) {fl : List (List Char)} {fs : List (List Nat)} (hs : ∀ l ∈ fl, significant l = true) (h : List.Forall₂ (fun l f => Starts l (f.length :: f)) fl fs) (a : Off F D) (ha : a.state = afterVertices a.nf) (hn : a.nf = fl.length) :
    ∃ b, offLoop N dflt fl a = (true, b) ∧ b.state = .done ∧ b.soup = ⟨a.soup.points, a.soup.faces ++ fs.flatMap fan, a.soup.data ++ List.replicate (fs.flatMap fan).length dflt⟩ := by
  induction h generalizing a with
  | nil =>
    refine ⟨a, rfl, ?_, by simp⟩
    rw [ha, hn]
    rfl
  | @cons l f fl fs hl h ih =>
    have hst : a.state = .faces := by rw [ha, hn]; rfl
    obtain ⟨b, h1, h2, h3⟩ := ih (fun x hx => hs x (by simp [hx])) { a with soup := addFaces a.soup dflt (fanFaces f), stored := a.stored + f.length, nf := a.nf - 1, state := if a.nf - 1 = 0 then .done else .faces } rfl (by
      show a.nf - 1 = fl.length
      rw [hn, List.length_cons]; rfl)
    refine ⟨b, by rw [offLoop_cons (offLine_polygon N dflt (hs l (by simp)) hst hl), h1], h2, ?_⟩
    rw [h3]
    dsimp only
    rw [addFaces_eq, fanFaces_eq]
    simp only [List.flatMap_cons, List.append_assoc, List.length_append, List.replicate_append_replicate]

end Kigumi.Text

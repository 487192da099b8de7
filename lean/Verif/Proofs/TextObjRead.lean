import Verif.Proofs.TextMeshFile
import Verif.Spec.ObjRead

/-! # Which OBJ files are read -/
namespace Kigumi.Text.Mesh
open Kigumi Kigumi.Text IS Ply

variable {F D : Type}

theorem isInt_ne {b : List Char} {v : Int} (h : IsInt b v) : b ≠ [] := by
  obtain ⟨-, -, ds, d1, -, d2⟩ := h
  rcases d2 with ⟨rfl | rfl, -⟩ | ⟨rfl, -⟩
  · exact d1
  · simp
  · simp

/-- Where a number is read, the word starts with one. -/
theorem leads_of_read {w a r : List Char} (ha : Spaces a) (ht : Tok w) (hr : Stop r) (h : (readSigned ⟨a ++ (w ++ r), false, false⟩ 0).1.fail = false) : ∃ v, Leads w v := by
  unfold readSigned at h
  rw [sentry_of_tok ha ht.1 fun c t e => ht.2 c (by rw [e]; simp)] at h
  dsimp only at h
  rw [if_neg (by simp), scanInt_stop ht.1 hr] at h
  dsimp only at h
  obtain ⟨sg, e, hd, hst, hsg⟩ := scanInt_split w
  generalize scanInt w = q at *
  obtain ⟨neg, ds, suf⟩ := q
  dsimp only at h e hd hst hsg
  split at h
  · cases h
  next hne =>
  split at h
  · next hneg =>
    split at h
    · cases h
    next hlt =>
    obtain ⟨rfl, -⟩ : sg = ['-'] ∧ neg = true := hsg.resolve_right fun k => by rw [hneg] at k; exact absurd k.2 (by simp)
    exact ⟨-(decVal ds : Int), '-' :: ds, suf, by rw [e]; rfl, hst, by omega, by omega, ds, hne, hd, .inr ⟨rfl, by rw [digitsValue_eq]⟩⟩
  · next hneg =>
    split at h
    · cases h
    next hlt =>
    have hsg := hsg.resolve_left fun k => hneg k.2
    refine ⟨(decVal ds : Int), sg ++ ds, suf, by rw [e, List.append_assoc], hst, by omega, by omega, ds, hne, hd, .inl ⟨?_, by rw [digitsValue_eq]⟩⟩
    rcases hsg.1 with rfl | rfl
    · exact .inr rfl
    · exact .inl rfl

/-- A word starts with at most one number, and this is read; then the stream is at the next word. -/
theorem leads_read {w a r : List Char} {v : Int} (h : Leads w v) (ha : Spaces a) (ht : Tok w) (hr : Stop r) : ∃ s, readSigned ⟨a ++ (w ++ r), false, false⟩ 0 = (s, v) ∧ s.fail = false ∧ s.rest.length < (a ++ (w ++ r)).length ∧
    ∃ e f, skipSuffix (s.rest.length + 1) s = ⟨r, e, f⟩ ∧ (r = [] → e = true) ∧ (r ≠ [] → e = false ∧ f = false) := by
  obtain ⟨b, suf, rfl, hst, hi⟩ := h
  have hsp : ∀ c ∈ suf, isSpace c = false := fun c hc => ht.2 c (by simp [hc])
  have hsd : StopDigit (suf ++ r) := by
    cases suf with
    | nil => exact hr.digit
    | cons c t =>
      intro c' t' e
      injection e with e _
      rw [← e]
      exact hst c t rfl
  have hread := hi.read ha hsd
  have hlen := List.length_pos_iff.2 (isInt_ne hi)
  rw [List.append_assoc]
  exact ⟨_, hread, rfl, by simp; omega, skipSuffix_spec hsp hr _ (by simp; omega)⟩

theorem leads_unique {w : List Char} {v v' : Int} (h : Leads w v) (h' : Leads w v') : v = v' := by
  have one : ∀ {v}, Leads w v → (readSigned ⟨w, false, false⟩ 0).2 = v := by
    rintro v ⟨b, suf, rfl, hst, hi⟩
    have := hi.read (a := []) (r := suf) spaces_nil hst
    rw [List.nil_append] at this
    rw [this]
  rw [← one h, one h']

/-- **The loop over the references of a face.** -/
theorem objIndices_exact (nv : Nat) (ws : List (List Char)) (n : Nat) (s : IS) (hs : Left s ws) (hn : s.rest.length < n) (face : List Nat) :
    (∃ f, FaceWords nv ws f ∧ objIndices nv n s face = (true, face ++ f)) ∨ (¬ ∃ f, FaceWords nv ws f) ∧ (objIndices nv n s face).1 = false := by
  induction ws generalizing n s face with
  | nil =>
    obtain ⟨m, rfl⟩ := Nat.exists_eq_succ_of_ne_zero (show n ≠ 0 by omega)
    refine .inl ⟨[], .nil, ?_⟩
    unfold objIndices
    dsimp only
    rw [if_pos (hs.comment (.inl rfl)), List.append_nil]
  | cons w ws ih =>
    obtain ⟨m, rfl⟩ := Nat.exists_eq_succ_of_ne_zero (show n ≠ 0 by omega)
    rcases hs with hs | ⟨hs, -⟩
    swap
    · cases hs
    obtain ⟨a, r, rfl, ha, ht, hst, e⟩ := hs.cons
    have e : words r = ws := e
    by_cases hl : ∃ v, Leads w v
    · obtain ⟨v, hl⟩ := hl
      obtain ⟨s', h1, h2, h3, e', f', h4, h5, h6⟩ := leads_read hl ha ht hst
      have hleft : Left ⟨r, e', f'⟩ ws := by
        by_cases h0 : r = []
        · right
          refine ⟨?_, by simp [good, h5 h0]⟩
          rw [← e, h0]
          rfl
        · left
          obtain ⟨rfl, rfl⟩ := h6 h0
          exact ⟨rfl, e, fun h => by cases h⟩
      have hlen : r.length < m := by
        have := List.length_pos_iff.2 ht.1
        simp at hn
        omega
      have step : ∀ i, RefersTo nv v i → objIndices nv (m + 1) ⟨a ++ (w ++ r), false, false⟩ face = objIndices nv m ⟨r, e', f'⟩ (face ++ [i]) := by
        intro i hi
        conv_lhs => unfold objIndices
        rw [h1]
        dsimp only
        rw [if_neg (by simp [h2]), h4]
        rcases hi with ⟨hp, hi⟩ | ⟨hp, hi⟩
        · rw [if_pos hp, ← hi]; simp
        · rw [if_neg (by omega), if_pos hp, ← hi]; simp
      by_cases h0 : v = 0
      · subst h0
        refine .inr ⟨?_, ?_⟩
        · rintro ⟨f, hf⟩
          cases hf with
          | stop h => exact h _ hl
          | ref h hi hf =>
            obtain rfl := leads_unique h hl
            rcases hi with ⟨hi, -⟩ | ⟨hi, -⟩ <;> exact absurd hi (by decide)
        · unfold objIndices
          rw [h1]
          dsimp only
          rw [if_neg (by simp [h2]), if_neg (by decide), if_neg (by decide)]
      · obtain ⟨i, hi⟩ : ∃ i : Nat, RefersTo nv v i := by
          rcases (show v < 0 ∨ 0 < v by omega) with h0 | h0
          · refine ⟨(((nv : Int) + v) % 2 ^ 64).toNat, .inr ⟨h0, ?_⟩⟩
            rw [Int.toNat_of_nonneg (Int.emod_nonneg _ (by decide))]
          · exact ⟨(v - 1).toNat, .inl ⟨h0, by omega⟩⟩
        rw [step i hi]
        rcases ih m ⟨r, e', f'⟩ hleft hlen (face ++ [i]) with ⟨f, hf, hx⟩ | ⟨hno, hx⟩
        · exact .inl ⟨i :: f, .ref hl hi hf, by rw [hx]; simp⟩
        · refine .inr ⟨?_, hx⟩
          rintro ⟨f, hf⟩
          cases hf with
          | stop h => exact h _ hl
          | ref h hi hf => exact hno ⟨_, hf⟩
    · refine .inl ⟨[], .stop fun v hv => hl ⟨v, hv⟩, ?_⟩
      unfold objIndices
      dsimp only
      rw [if_pos, List.append_nil]
      by_contra hf
      exact hl (leads_of_read ha ht hst (by simpa using hf))

theorem faceWords_unique {n : Nat} {ws : List (List Char)} {f f' : List Nat} (h : FaceWords n ws f) (h' : FaceWords n ws f') : f = f' := by
  induction h generalizing f' with
  | nil => cases h'; rfl
  | stop h => cases h' with
    | stop _ => rfl
    | ref k _ _ => exact absurd k (h _)
  | ref h hi hf ih => cases h' with
    | stop k => exact absurd h (k _)
    | ref k ki kf =>
      obtain rfl := leads_unique h k
      rw [ih kf]
      have : ∀ {n v} {i j : Nat}, RefersTo n v i → RefersTo n v j → i = j := by
        rintro n v i j (⟨a, b⟩ | ⟨a, b⟩) (⟨c, d⟩ | ⟨c, d⟩) <;> omega
      rw [this hi ki]

theorem readDouble_exact {N : Doubles F} {s : IS} {ws : List (List Char)} (h : At s ws) (old : F) : (readDouble N s old).1.fail = true ∨ ∃ w r, ws = w :: r ∧ IsReal N w (readDouble N s old).2 ∧ At (readDouble N s old).1 r := by
  rcases h.readStr' with ⟨-, hf⟩ | ⟨w, r, rfl, hw, hr⟩
  · left
    unfold Text.readDouble
    dsimp only
    rw [if_pos hf]
    exact hf
  · unfold Text.readDouble
    dsimp only
    rw [if_neg (by simp [hr.fail]), hw]
    cases hp : N.parse (dropPlus w) with
    | none => exact .inl rfl
    | some x =>
      refine .inr ⟨w, r, rfl, ?_, hr⟩
      unfold dropPlus at hp
      split at hp
      · exact .inl ⟨_, rfl, hp⟩
      · next hno => exact .inr ⟨fun r e => hno r e, hp⟩

theorem readDouble_failed {N : Doubles F} {s : IS} (h : s.fail = true) (old : F) : (readDouble N s old).1.fail = true := by
  unfold Text.readDouble
  dsimp only
  rw [if_pos (readStr_failed h)]
  exact readStr_failed h

/-- **Points.** -/
theorem readPoint_exact {N : Doubles F} {s : IS} {ws : List (List Char)} (h : At s ws) {p : P3 F} (hp : readPoint N s = some p) : IsPoint N ws p := by
  unfold Text.readPoint at hp
  dsimp only at hp
  split at hp
  · cases hp
  next hf =>
  obtain rfl := Option.some.inj hp
  rcases readDouble_exact h N.zero with h1 | ⟨x, r1, rfl, hx, h1⟩
  · exact absurd (readDouble_failed (readDouble_failed h1 _) _) hf
  rcases readDouble_exact h1 N.zero with h2 | ⟨y, r2, rfl, hy, h2⟩
  · exact absurd (readDouble_failed h2 _) hf
  rcases readDouble_exact h2 N.zero with h3 | ⟨z, r3, rfl, hz, h3⟩
  · exact absurd h3 hf
  exact ⟨x, y, z, r3, rfl, hx, hy, hz⟩

/-- **The loop over lines.** -/
theorem objLoop_exact (N : Doubles F) (dflt : D) (ls : List (List Char)) (hs : ∀ l ∈ ls, significant l = true) (a : Acc F D) :
    (∃ ps fs b, ObjTaken N a.soup.points.length (ls.map words) ps fs ∧ objLoop N dflt ls a = (true, b) ∧ b.soup = ⟨a.soup.points ++ ps, a.soup.faces ++ fs.flatMap fan, a.soup.data ++ List.replicate (fs.flatMap fan).length dflt⟩) ∨
    (¬ ∃ ps fs, ObjTaken N a.soup.points.length (ls.map words) ps fs) ∧ (objLoop N dflt ls a).1 = false := by
  induction ls generalizing a with
  | nil => exact .inl ⟨[], [], a, .nil _, rfl, by simp⟩
  | cons l ls ih =>
    have hsig := hs l (by simp)
    have hs' : ∀ x ∈ ls, significant x = true := fun x hx => hs x (by simp [hx])
    obtain ⟨w, ws, hw⟩ : ∃ w ws, words l = w :: ws := by
      cases hw : words l with
      | cons w ws => exact ⟨w, ws, rfl⟩
      | nil =>
        obtain ⟨a, c, r, ha, hc, hh, rfl⟩ := significant_cases hsig
        obtain ⟨h1, h2⟩ := start_line hsig
        rw [hw] at h2
        have h3 := h2.sentry_nil
        rw [optHashEof_tok ha hc hh] at h3
        simp [IS.clear, sentry, good, hc] at h3
    rw [List.map_cons, hw]
    obtain ⟨s', h1, h2⟩ := objLine_words (N := N) (dflt := dflt) hsig a hw
    by_cases hv : w = ['v']
    · subst hv
      rw [if_pos rfl] at h2
      cases hp : readPoint N s' with
      | none =>
        refine .inr ⟨?_, ?_⟩
        · rintro ⟨ps, fs, h⟩
          cases h with
          | vertex hp' h =>
            rw [At.readPoint h1 hp'] at hp
            cases hp
          | other hv hf h => exact hv rfl
        · rw [hp] at h2
          unfold objLoop
          rw [h2]
          rfl
      | some p =>
        rw [hp] at h2
        dsimp only at h2
        rw [objLoop_cons h2]
        have hpt := readPoint_exact h1 hp
        rcases ih hs' ⟨(a.soup.addVertex p).1, a.stored + 1⟩ with ⟨ps, fs, b, k1, k2, k3⟩ | ⟨k1, k2⟩
        · refine .inl ⟨p :: ps, fs, b, .vertex hpt (by simpa [Soup.addVertex] using k1), k2, ?_⟩
          rw [k3]
          simp [Soup.addVertex]
        · refine .inr ⟨?_, k2⟩
          rintro ⟨ps, fs, h⟩
          cases h with
          | vertex hp' h => exact k1 ⟨_, _, by simpa [Soup.addVertex] using h⟩
          | other hv hf h => exact hv rfl
    rw [if_neg hv] at h2
    by_cases hf : w = ['f']
    · subst hf
      rw [if_pos rfl] at h2
      rcases objIndices_exact a.soup.points.length ws (s'.rest.length + 1) s' (.inl h1) (by omega) [] with ⟨f, hfw, hx⟩ | ⟨hno, hx⟩
      · rw [hx, if_pos rfl] at h2
        rw [objLoop_cons h2]
        have hlen : (addFaces a.soup dflt (fanFaces ([] ++ f))).points.length = a.soup.points.length := by rw [addFaces_eq]
        rcases ih hs' ⟨addFaces a.soup dflt (fanFaces ([] ++ f)), a.stored + ([] ++ f).length⟩ with ⟨ps, fs, b, k1, k2, k3⟩ | ⟨k1, k2⟩
        · dsimp only at k1
          rw [hlen] at k1
          refine .inl ⟨ps, f :: fs, b, .face hfw k1, k2, ?_⟩
          rw [k3]
          dsimp only
          rw [addFaces_eq, fanFaces_eq, List.nil_append]
          simp only [List.flatMap_cons, List.append_assoc, List.length_append, List.replicate_append_replicate]
        · dsimp only at k1
          rw [hlen] at k1
          refine .inr ⟨?_, k2⟩
          rintro ⟨ps, fs, h⟩
          cases h with
          | face hf' h => exact k1 ⟨_, _, h⟩
          | other hv hf h => exact hf rfl
      · refine .inr ⟨?_, ?_⟩
        · rintro ⟨ps, fs, h⟩
          cases h with
          | face hf' h => exact hno ⟨_, hf'⟩
          | other hv hf h => exact hf rfl
        · rw [hx, if_neg (by simp)] at h2
          unfold objLoop
          rw [h2]
          rfl
    · rw [if_neg hf] at h2
      rw [objLoop_cons h2]
      rcases ih hs' a with ⟨ps, fs, b, k1, k2, k3⟩ | ⟨k1, k2⟩
      · exact .inl ⟨ps, fs, b, .other hv hf k1, k2, k3⟩
      · refine .inr ⟨?_, k2⟩
        rintro ⟨ps, fs, h⟩
        cases h with
        | vertex _ _ => exact hv rfl
        | face _ _ => exact hf rfl
        | other _ _ h => exact k1 ⟨_, _, h⟩

theorem isReal_unique {N : Doubles F} {w : List Char} {x y : F} (h : IsReal N w x) (h' : IsReal N w y) : x = y := by
  rcases h with ⟨r, rfl, h⟩ | ⟨hn, h⟩ <;> rcases h' with ⟨r', e, h'⟩ | ⟨hn', h'⟩
  · injection e with _ e
    subst e
    exact Option.some.inj (h.symm.trans h')
  · exact absurd rfl (hn' _)
  · exact absurd e (hn _)
  · exact Option.some.inj (h.symm.trans h')

theorem isPoint_unique {N : Doubles F} {ws : List (List Char)} {p q : P3 F} (h : IsPoint N ws p) (h' : IsPoint N ws q) : p = q := by
  obtain ⟨x, y, z, r, rfl, h1, h2, h3⟩ := h
  obtain ⟨x', y', z', r', e, k1, k2, k3⟩ := h'
  simp only [List.cons.injEq] at e
  obtain ⟨rfl, rfl, rfl, rfl⟩ := e
  exact Prod.ext (isReal_unique h1 k1) (Prod.ext (isReal_unique h2 k2) (isReal_unique h3 k3))

theorem objTaken_unique {N : Doubles F} {n : Nat} {W : List (List (List Char))} {ps ps' : List (P3 F)} {fs fs' : List (List Nat)} (h : ObjTaken N n W ps fs) (h' : ObjTaken N n W ps' fs') : ps = ps' ∧ fs = fs' := by
  induction h generalizing ps' fs' with
  | nil n => cases h'; exact ⟨rfl, rfl⟩
  | vertex hp h ih => cases h' with
    | vertex hp' h' =>
      obtain ⟨rfl, rfl⟩ := ih h'
      exact ⟨by rw [isPoint_unique hp hp'], rfl⟩
    | other hv _ _ => exact absurd rfl hv
  | face hf h ih => cases h' with
    | face hf' h' =>
      obtain ⟨rfl, rfl⟩ := ih h'
      exact ⟨rfl, by rw [faceWords_unique hf hf']⟩
    | other _ hv _ => exact absurd rfl hv
  | other hv hf h ih => cases h' with
    | vertex _ _ => exact absurd rfl hv
    | face _ _ => exact absurd rfl hf
    | other _ _ h' => exact ih h'

end Kigumi.Text.Mesh

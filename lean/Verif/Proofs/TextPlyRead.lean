import Verif.Proofs.TextPlyFile
import Verif.Proofs.TextWork

/-! # Reading PLY files of any layout -/
namespace Kigumi.Text.Ply
open Kigumi Kigumi.Text IS

variable {F D : Type}

/-! ## The header -/

/-- Lines of the header, given by their words. -/
def run (st : PlyState) (els : List Elem) : List (List (List Char)) → Option (PlyState × List Elem)
  | [] => some (st, els)
  | w :: ws => (headerWords st els w).bind fun x => run x.1 x.2 ws

theorem run_cons (st : PlyState) (els : List Elem) (w : List (List Char)) (ws : List (List (List Char))) : run st els (w :: ws) = (headerWords st els w).bind fun x => run x.1 x.2 ws := rfl

theorem plyHeader_cons (l : List Char) (ls : List (List Char)) (st : PlyState) (els : List Elem) : plyHeader (l :: ls) st els = match plyHeaderLine l st els with
    | none => none
    | some (st, els) => if st = .body then some (els, ls) else plyHeader ls st els := rfl

theorem meaningful_cons {a : List Char} {r : List (List Char)} (h : meaningful (a :: r) = true) : a ≠ "comment".toList := of_decide_eq_true h

theorem headerWords_skip {w : List (List Char)} (h : meaningful w = false) (st : PlyState) (els : List Elem) : headerWords st els w = some (st, els) := by
  cases w with
  | nil => rfl
  | cons a r =>
    have : a = "comment".toList := by simpa [meaningful] using h
    unfold headerWords
    dsimp only
    rw [if_pos this]

theorem headerWords_body (els : List Elem) (w : List (List Char)) : headerWords .body els w = some (.body, els) := by
  cases w with
  | nil => rfl
  | cons a r =>
    unfold headerWords
    dsimp only
    split <;> rfl

theorem run_body (els : List Elem) (ws : List (List (List Char))) : run .body els ws = some (.body, els) := by
  induction ws with
  | nil => rfl
  | cons w ws ih => unfold run; rw [headerWords_body]; exact ih

theorem run_append (ws ws' : List (List (List Char))) (st : PlyState) (els : List Elem) : run st els (ws ++ ws') = (run st els ws).bind fun x => run x.1 x.2 ws' := by
  induction ws generalizing st els with
  | nil => rfl
  | cons w ws ih =>
    rw [List.cons_append, run_cons, run_cons]
    cases headerWords st els w with
    | none => rfl
    | some x => exact ih x.1 x.2

theorem plyHeader_run {init : List (List Char)} {st st' : PlyState} {els els' : List Elem} (h : run st els ((init.map words).filter meaningful) = some (st', els')) (hb : st' ≠ .body) (ls : List (List Char)) :
    plyHeader (init ++ ls) st els = plyHeader ls st' els' := by
  induction init generalizing st els with
  | nil =>
    cases h
    rfl
  | cons l init ih =>
    rw [List.cons_append, plyHeader_cons, plyHeaderLine_words]
    rw [List.map_cons, List.filter_cons] at h
    split at h
    · next hm =>
      unfold run at h
      obtain ⟨⟨s1, e1⟩, h1, h2⟩ := Option.bind_eq_some_iff.1 h
      dsimp only at h2
      rw [h1]
      dsimp only
      split
      · next hs =>
        subst hs
        rw [run_body] at h2
        cases h2
        exact absurd rfl hb
      · exact ih h2
    · next hm =>
      rw [headerWords_skip (by simpa using hm)]
      dsimp only
      split
      · next hs =>
        subst hs
        rw [run_body] at h
        cases h
        exact absurd rfl hb
      · exact ih h

theorem plyHeader_runs {ls : List (List Char)} {st : PlyState} {els els' : List Elem} {rest : List (List Char)} (hst : st ≠ .body) (h : plyHeader ls st els = some (els', rest)) :
    ∃ init l last, ls = init ++ l :: rest ∧ words l = "end_header".toList :: last ∧ run st els ((init.map words).filter meaningful) = some (.elements, els') := by
  induction ls generalizing st els with
  | nil => cases h
  | cons l ls ih =>
    unfold plyHeader at h
    rw [plyHeaderLine_words] at h
    split at h
    · cases h
    · next s1 e1 h1 =>
      split at h
      · next hs =>
        subst hs
        cases h
        refine ⟨[], l, (words l).tail, rfl, ?_⟩
        cases hw : words l with
        | nil => rw [hw] at h1; cases h1; exact absurd rfl hst
        | cons w ws =>
          rw [hw] at h1
          unfold headerWords at h1
          dsimp only at h1
          split at h1
          · cases h1; exact absurd rfl hst
          · cases st with
            | signature => dsimp only at h1; split at h1 <;> cases h1
            | version => dsimp only at h1; split at h1 <;> cases h1
            | body => exact absurd rfl hst
            | elements =>
              dsimp only at h1
              split at h1
              · split at h1
                · obtain ⟨n, -, hn⟩ := Option.map_eq_some_iff.1 h1
                  cases hn
                · cases h1
              · split at h1
                · split at h1
                  · cases h1
                  · split at h1
                    · split at h1 <;> cases h1
                    · split at h1 <;> cases h1
                    · cases h1
                · split at h1
                  · next he =>
                    cases h1
                    exact ⟨by rw [he]; rfl, rfl⟩
                  · cases h1
      · next hs =>
        obtain ⟨init, l', last, rfl, i1, i2⟩ := ih hs h
        refine ⟨l :: init, l', last, rfl, i1, ?_⟩
        rw [List.map_cons, List.filter_cons]
        split
        · unfold run
          rw [h1]
          exact i2
        · next hm =>
          rw [headerWords_skip (by simpa using hm)] at h1
          cases h1
          exact i2

/-- A property as the reader keeps it. -/
def toProp : Property → Prop'
  | .scalar t n => ⟨t, n⟩
  | .list _ _ n => ⟨"list".toList, n⟩

/-- An element as the reader keeps it. -/
def toElem (e : Element) : Elem := ⟨e.name, e.count, e.props.map toProp⟩

theorem addProp_last (E : List Elem) (e : Elem) (p : Prop') : addProp (E ++ [e]) p = E ++ [{ e with props := e.props ++ [p] }] := by
  induction E with
  | nil => rfl
  | cons a E ih =>
    rw [List.cons_append]
    cases hE : E ++ [e] with
    | nil => simp at hE
    | cons b r =>
      rw [addProp, ← hE, ih]
      · rfl
      · simp

theorem headerWords_property {p : Property} (hp : p.Valid) {E : List Elem} (hE : E ≠ []) : headerWords .elements E p.line = some (.elements, addProp E (toProp p)) := by
  cases p with
  | scalar t n =>
    show (if E = [] then none else if t = "list".toList then none else some (PlyState.elements, addProp E ⟨t, n⟩)) = _
    rw [if_neg hE, if_neg hp]
    rfl
  | list c i n =>
    show (if E = [] then none else some (PlyState.elements, addProp E ⟨"list".toList, n⟩)) = _
    rw [if_neg hE]
    rfl

theorem run_props {ps : List Property} (hp : ∀ p ∈ ps, p.Valid) (E : List Elem) (e : Elem) : run .elements (E ++ [e]) (ps.map Property.line) = some (.elements, E ++ [{ e with props := e.props ++ ps.map toProp }]) := by
  induction ps generalizing e with
  | nil => simp [run]
  | cons p ps ih =>
    rw [List.map_cons]
    unfold run
    rw [headerWords_property (hp p (by simp)) (by simp), addProp_last]
    show run .elements _ _ = _
    rw [ih fun q hq => hp q (by simp [hq])]
    simp

theorem run_decls {C : List Char → Nat → Prop} (hC : ∀ w n, C w n → countOf w = some n) {els : List Element} {decls : List (List (List (List Char)))} (hd : List.Forall₂ (Element.Declared C) els decls) (hp : ∀ e ∈ els, ∀ p ∈ e.props, p.Valid) (E : List Elem) :
    run .elements E decls.flatten = some (.elements, E ++ els.map toElem) := by
  induction hd generalizing E with
  | nil => simp [run]
  | @cons e decl els decls h1 h2 ih =>
    obtain ⟨c, hc⟩ := h1
    have h3 : headerWords .elements E ["element".toList, e.name, c] = some (.elements, E ++ [⟨e.name, e.count, []⟩]) := by
      show ((countOf c).map fun n => (PlyState.elements, E ++ [(⟨e.name, n, []⟩ : Elem)])) = _
      rw [hC _ _ hc]
      rfl
    rw [List.flatten_cons, run_append, run_cons, h3]
    show ((run .elements (E ++ [⟨e.name, e.count, []⟩]) (e.props.map Property.line)).bind fun x => run x.1 x.2 decls.flatten) = _
    rw [run_props (hp e (by simp))]
    show run .elements _ decls.flatten = _
    rw [ih fun e' he' => hp e' (by simp [he'])]
    simp [toElem]

/-- What lines after the version can be. -/
theorem run_inv {W : List (List (List Char))} (hm : ∀ w ∈ W, meaningful w = true) (ht : ∀ w ∈ W, ∀ t ∈ w, Tok t) {E E' : List Elem} (h : run .elements E W = some (.elements, E')) :
    ∃ (ps : List Property) (els : List Element) (decls : List (List (List (List Char)))), W = ps.map Property.line ++ decls.flatten ∧ List.Forall₂ (Element.Declared IsNatOrWrapped) els decls ∧ (∀ p ∈ ps, p.Valid) ∧ (∀ e ∈ els, ∀ p ∈ e.props, p.Valid) ∧
      (E = [] → ps = [] ∧ E' = els.map toElem) ∧ ∀ E0 e, E = E0 ++ [e] → E' = E0 ++ [{ e with props := e.props ++ ps.map toProp }] ++ els.map toElem := by
  induction W generalizing E with
  | nil =>
    cases h
    refine ⟨[], [], [], rfl, .nil, by simp, by simp, fun e => ⟨rfl, e⟩, fun E0 e he => by simpa using he⟩
  | cons w W ih =>
    have hmw := hm w (by simp)
    have htw := ht w (by simp)
    replace ih := fun {E} => ih (fun w hw => hm w (by simp [hw])) (fun w hw => ht w (by simp [hw])) (E := E)
    rw [run_cons] at h
    obtain ⟨⟨st1, E1⟩, h1, h2⟩ := Option.bind_eq_some_iff.1 h
    dsimp only at h2
    cases w with
    | nil => cases hmw
    | cons a r =>
      have ha : a ≠ "comment".toList := meaningful_cons hmw
      unfold headerWords at h1
      dsimp only at h1
      rw [if_neg ha] at h1
      split at h1
      · next ha =>
        subst ha
        split at h1
        · next name c =>
          obtain ⟨n, hn, hx⟩ := Option.map_eq_some_iff.1 h1
          cases hx
          obtain ⟨ps, els, decls, i1, i2, i3, i4, -, i6⟩ := ih h2
          refine ⟨[], ⟨name, n, ps⟩ :: els, (["element".toList, name, c] :: ps.map Property.line) :: decls, by rw [i1]; simp, .cons ⟨c, (countOf_iff (htw c (by simp)) n).1 hn⟩ i2, by simp, ?_, ?_, ?_⟩
          · intro e he
            rcases List.mem_cons.1 he with rfl | he
            · exact i3
            · exact i4 e he
          · intro hE
            subst hE
            refine ⟨rfl, ?_⟩
            rw [i6 [] _ rfl]
            simp [toElem]
          · intro E0 e hE
            rw [i6 _ _ rfl, hE]
            simp [toElem]
        · cases h1
      · split at h1
        · next ha =>
          subst ha
          split at h1
          · cases h1
          · next hne =>
            have key : ∃ p : Property, p.Valid ∧ "property".toList :: r = p.line ∧ st1 = .elements ∧ E1 = addProp E (toProp p) := by
              split at h1
              · next t n =>
                split at h1
                · cases h1
                · next hl =>
                  cases h1
                  exact ⟨.scalar t n, hl, rfl, rfl, rfl⟩
              · next t c i n =>
                split at h1
                · next hl =>
                  cases h1
                  subst hl
                  exact ⟨.list c i n, trivial, rfl, rfl, rfl⟩
                · cases h1
              · cases h1
            obtain ⟨p, p1, p2, rfl, rfl⟩ := key
            obtain ⟨E0, e, rfl⟩ : ∃ E0 e, E = E0 ++ [e] := ⟨E.dropLast, E.getLast hne, (List.dropLast_append_getLast hne).symm⟩
            rw [addProp_last] at h2
            obtain ⟨ps, els, decls, i1, i2, i3, i4, -, i6⟩ := ih h2
            refine ⟨p :: ps, els, decls, by rw [i1, p2]; rfl, i2, ?_, i4, fun h => absurd h hne, ?_⟩
            · intro q hq
              rcases List.mem_cons.1 hq with rfl | hq
              · exact p1
              · exact i3 q hq
            · intro E0' e' hE
              obtain ⟨rfl, h⟩ := List.append_inj' hE rfl
              cases h
              rw [i6 _ _ rfl]
              simp
        · split at h1
          · cases h1
            rw [run_body] at h2
            cases h2
          · cases h1

theorem run_signature {W : List (List (List Char))} (hm : ∀ w ∈ W, meaningful w = true) {E' : List Elem} (h : run .signature [] W = some (.elements, E')) :
    ∃ W', W = ["ply".toList] :: ["format".toList, "ascii".toList, "1.0".toList] :: W' ∧ run .elements [] W' = some (.elements, E') := by
  cases W with
  | nil => cases h
  | cons w W =>
    obtain ⟨⟨st1, E1⟩, h1, h2⟩ := Option.bind_eq_some_iff.1 h
    have hw := hm w (by simp)
    cases w with
    | nil => cases hw
    | cons a r =>
      have ha : a ≠ "comment".toList := meaningful_cons hw
      unfold headerWords at h1
      dsimp only at h1
      rw [if_neg ha] at h1
      split at h1
      · next hc =>
        obtain ⟨rfl, rfl⟩ := hc
        cases h1
        dsimp only at h2
        cases W with
        | nil => cases h2
        | cons w W =>
          obtain ⟨⟨st2, E2⟩, h3, h4⟩ := Option.bind_eq_some_iff.1 h2
          have hw := hm w (by simp)
          cases w with
          | nil => cases hw
          | cons a r =>
            have ha : a ≠ "comment".toList := meaningful_cons hw
            unfold headerWords at h3
            dsimp only at h3
            rw [if_neg ha] at h3
            split at h3
            · next hc =>
              obtain ⟨rfl, rfl⟩ := hc
              cases h3
              exact ⟨W, rfl, h4⟩
            · cases h3
      · cases h1

/-- What the reader makes of a header. -/
theorem plyHeader_of {hdr rest : List (List Char)} {els : List Element} {C : List Char → Nat → Prop} (hC : ∀ w n, C w n → countOf w = some n) (h : Header C hdr els) : plyHeader (hdr ++ rest) .signature [] = some (els.map toElem, rest) := by
  obtain ⟨init, l, last, decls, rfl, hl, hd, hv, hf⟩ := h
  have h1 : run .signature [] ((init.map words).filter meaningful) = some (.elements, els.map toElem) := by
    rw [hf]
    have := run_decls hC hd hv []
    rw [List.nil_append] at this
    exact this
  rw [List.append_assoc, plyHeader_run h1 (by simp), List.singleton_append, plyHeader_cons, plyHeaderLine_words, hl]
  rfl

theorem plyHeader_inv {ls rest : List (List Char)} {E : List Elem} (h : plyHeader ls .signature [] = some (E, rest)) : ∃ hdr els, ls = hdr ++ rest ∧ Header IsNatOrWrapped hdr els ∧ E = els.map toElem := by
  obtain ⟨init, l, last, rfl, hl, hr⟩ := plyHeader_runs (by simp) h
  have hm : ∀ w ∈ (init.map words).filter meaningful, meaningful w = true := fun w hw => (List.mem_filter.1 hw).2
  obtain ⟨W', hW, hr'⟩ := run_signature hm hr
  obtain ⟨ps, els, decls, i1, i2, -, i4, i5, -⟩ := run_inv (fun w hw => hm w (by rw [hW]; simp [hw])) (fun w hw t ht => by
    have : w ∈ (init.map words).filter meaningful := by rw [hW]; simp [hw]
    obtain ⟨l, -, rfl⟩ := List.mem_map.1 (List.mem_filter.1 this).1
    exact words_toks l t ht) hr'
  obtain ⟨rfl, hE⟩ := i5 rfl
  exact ⟨init ++ [l], els, by simp, ⟨init, l, last, decls, rfl, hl, i2, i4, by rw [hW, i1]; rfl⟩, hE⟩

/-! ## Elements and properties -/

theorem first_find {α : Type} {l : List α} {p : α → Bool} {P : α → Prop} (hp : ∀ a ∈ l, p a = true ↔ P a) (i : Nat) : l.findIdx? p = some i ↔ First l P i := by
  rw [List.findIdx?_eq_some_iff_getElem]
  constructor
  · rintro ⟨hi, h1, h2⟩
    refine ⟨⟨_, List.getElem?_eq_getElem hi, (hp _ (List.getElem_mem hi)).1 h1⟩, fun j hj a ha hP => ?_⟩
    rw [List.getElem?_eq_getElem (by omega)] at ha
    cases ha
    have := h2 j hj
    exact this ((hp _ (List.getElem_mem _)).2 hP)
  · rintro ⟨⟨a, h1, h2⟩, h3⟩
    obtain ⟨hi, rfl⟩ := List.getElem?_eq_some_iff.1 h1
    refine ⟨hi, (hp _ (List.getElem_mem hi)).2 h2, fun j hj => ?_⟩
    have := h3 j hj _ (List.getElem?_eq_getElem (by omega))
    have h4 := mt (hp _ (List.getElem_mem (by omega))).1 this
    simpa using h4

theorem First.unique {α : Type} {l : List α} {P : α → Prop} {i j : Nat} (hi : First l P i) (hj : First l P j) : i = j := by
  obtain ⟨⟨a, a1, a2⟩, a3⟩ := hi
  obtain ⟨⟨b, b1, b2⟩, b3⟩ := hj
  rcases Nat.lt_trichotomy i j with h | h | h
  · exact absurd a2 (b3 i h a a1)
  · exact h
  · exact absurd b2 (a3 j h b b1)

theorem findElement_iff (els : List Element) (n : List Char) (i : Nat) : findElement (els.map toElem) n = some i ↔ First els (fun e => e.name = n) i := by
  unfold findElement
  rw [List.findIdx?_map]
  exact first_find (fun a _ => decide_eq_true_iff) i

theorem toProp_list {p : Property} (hp : p.Valid) : (toProp p).type = "list".toList ↔ p.isList = true := by
  cases p with
  | scalar t n => exact ⟨fun h => absurd h hp, fun h => by cases h⟩
  | list c i n => exact ⟨fun _ => rfl, fun _ => rfl⟩

theorem toProp_name (p : Property) : (toProp p).name = p.name := by cases p <;> rfl

theorem findProperty_iff {e : Element} (he : ∀ p ∈ e.props, p.Valid) (names : List (List Char)) (b : Bool) (i : Nat) :
    findProperty (toElem e) names b = some i ↔ First e.props (fun p => p.isList = b ∧ p.name ∈ names) i := by
  unfold findProperty
  show (e.props.map toProp).findIdx? _ = _ ↔ _
  rw [List.findIdx?_map]
  refine first_find (fun p hp => ?_) i
  have := toProp_list (he p hp)
  simp only [Function.comp, Bool.and_eq_true, decide_eq_true_eq, beq_iff_eq, toProp_name]
  rw [and_comm]
  refine and_congr_left fun _ => ?_
  rw [show decide ((toProp p).type = "list".toList) = p.isList by rw [Bool.eq_iff_iff, decide_eq_true_iff]; exact this]

theorem coordinate_iff {e : Element} (he : ∀ p ∈ e.props, p.Valid) (n : List Char) (i : Nat) : findProperty (toElem e) [n] false = some i ↔ Coordinate e.props n i := by
  rw [findProperty_iff he]
  unfold Coordinate
  simp

theorem vertices_iff {e : Element} (he : ∀ p ∈ e.props, p.Valid) (i : Nat) : findProperty (toElem e) ["vertex_index".toList, "vertex_indices".toList] true = some i ↔ Vertices e.props i := by
  rw [findProperty_iff he]
  unfold Vertices
  rw [show (fun p : Property => p.isList = true ∧ p.name ∈ ["vertex_index".toList, "vertex_indices".toList]) = fun p => p.isList = true ∧ (p.name = "vertex_index".toList ∨ p.name = "vertex_indices".toList) from funext fun p => by
    rw [List.mem_cons, List.mem_singleton]]

theorem plyPlan_iff {els : List Element} (he : ∀ e ∈ els, ∀ p ∈ e.props, p.Valid) (q : PlyPlan) : plyPlan (els.map toElem) = some q ↔
    ∃ v f, Needed els q.ve q.fe v f ∧ Coordinate v.props "x".toList q.x ∧ Coordinate v.props "y".toList q.y ∧ Coordinate v.props "z".toList q.z ∧ Vertices f.props q.vi := by
  unfold plyPlan
  constructor
  · intro h
    obtain ⟨ve, h1, h⟩ := Option.bind_eq_some_iff.1 h
    obtain ⟨v, h2, h⟩ := Option.bind_eq_some_iff.1 h
    obtain ⟨x, h3, h⟩ := Option.bind_eq_some_iff.1 h
    obtain ⟨y, h4, h⟩ := Option.bind_eq_some_iff.1 h
    obtain ⟨z, h5, h⟩ := Option.bind_eq_some_iff.1 h
    obtain ⟨fe, h6, h⟩ := Option.bind_eq_some_iff.1 h
    obtain ⟨f, h7, h⟩ := Option.bind_eq_some_iff.1 h
    obtain ⟨vi, h8, h⟩ := Option.bind_eq_some_iff.1 h
    cases h
    rw [List.getElem?_map] at h2 h7
    obtain ⟨v, hv, rfl⟩ := Option.map_eq_some_iff.1 h2
    obtain ⟨f, hf, rfl⟩ := Option.map_eq_some_iff.1 h7
    have ev := he v (List.mem_of_getElem? hv)
    have ef := he f (List.mem_of_getElem? hf)
    rw [coordinate_iff ev] at h3 h4 h5
    rw [vertices_iff ef] at h8
    rw [findElement_iff] at h1 h6
    exact ⟨v, f, ⟨h1, h6, hv, hf, ⟨_, h3⟩, ⟨_, h4⟩, ⟨_, h5⟩, ⟨_, h8⟩⟩, h3, h4, h5, h8⟩
  · rintro ⟨v, f, hn, h3, h4, h5, h8⟩
    have ev := he v (List.mem_of_getElem? hn.atVertex)
    have ef := he f (List.mem_of_getElem? hn.atFace)
    rw [(findElement_iff _ _ _).2 hn.vertex, Option.bind_some, List.getElem?_map, hn.atVertex, Option.map_some, Option.bind_some, (coordinate_iff ev _ _).2 h3, Option.bind_some, (coordinate_iff ev _ _).2 h4, Option.bind_some, (coordinate_iff ev _ _).2 h5, Option.bind_some,
      (findElement_iff _ _ _).2 hn.face, Option.bind_some, List.getElem?_map, hn.atFace, Option.map_some, Option.bind_some, (vertices_iff ef _).2 h8]
    rfl

/-! ## Lines of the body -/

theorem At.readDouble {N : Doubles F} {s : IS} {w : List Char} {ws : List (List Char)} (h : At s (w :: ws)) {x : F} (hx : IsReal N w x) (old : F) : ∃ s', readDouble N s old = (s', x) ∧ At s' ws := by
  obtain ⟨s', e, h'⟩ := h.readStr
  refine ⟨s', ?_, h'⟩
  unfold Text.readDouble
  rw [e]
  dsimp only
  rw [if_neg (by simp [h'.fail])]
  rcases hx with ⟨r, rfl, hr⟩ | ⟨hn, hr⟩
  · show (match N.parse r with | some x => (s', x) | none => (s'.setFail, old)) = _
    rw [hr]
  · have : dropPlus w = w := by
      unfold dropPlus
      split
      · next r => exact absurd rfl (hn r)
      · rfl
    rw [this, hr]

theorem At.skipTokens {items ws : List (List Char)} {s : IS} (h : At s (items ++ ws)) : At (skipTokens items.length s) ws := by
  induction items generalizing s with
  | nil => exact h
  | cons w items ih =>
    obtain ⟨s', e, h'⟩ := At.readStr (by simpa using h)
    rw [List.length_cons, Text.skipTokens, e]
    exact ih h'

theorem At.readIndices {items ws : List (List Char)} {f : List Nat} (hf : List.Forall₂ IsNat items f) {s : IS} (h : At s (items ++ ws)) : ∃ s', readIndices items.length s = (s', f) ∧ At s' ws := by
  induction hf generalizing s with
  | nil => exact ⟨s, rfl, h⟩
  | @cons w n items f hw hf ih =>
    obtain ⟨s', e, h'⟩ := At.readSize (by simpa using h) hw 0
    obtain ⟨s'', e', h''⟩ := ih h'
    refine ⟨s'', ?_, h''⟩
    rw [List.length_cons, Text.readIndices, e]
    dsimp only
    rw [e']

theorem skip_one {p : Property} (hv : p.Valid) (hp : p.isList = false) {s : IS} {w : List Char} {ws : List (List Char)} (h : At s (w :: ws)) : At (skipProperty (toProp p) s) ws := by
  unfold skipProperty
  rw [if_neg (by rw [toProp_list hv, hp]; simp)]
  obtain ⟨s', e, h'⟩ := h.readStr
  rw [e]
  exact h'

theorem skip_many {p : Property} (hv : p.Valid) (hp : p.isList = true) {s : IS} {c : List Char} {items ws : List (List Char)} (hc : IsNat c items.length) (h : At s (c :: (items ++ ws))) : At (skipProperty (toProp p) s) ws := by
  unfold skipProperty
  rw [if_pos ((toProp_list hv).2 hp)]
  obtain ⟨s', e, h'⟩ := h.readSize hc 0
  rw [e]
  exact h'.skipTokens

/-- The value at the place `k`, which counts from `i`. -/
def AtPlace (vs : List Val) (i k : Nat) (P : Val → Prop) : Prop := i ≤ k → ∃ v, vs[k - i]? = some v ∧ P v

theorem AtPlace.here {v : Val} {vs : List Val} {i : Nat} {P : Val → Prop} (h : AtPlace (v :: vs) i i P) : P v := by
  obtain ⟨v', h1, h2⟩ := h (Nat.le_refl i)
  rw [Nat.sub_self] at h1
  cases h1
  exact h2

theorem AtPlace.next {v : Val} {vs : List Val} {i k : Nat} {P : Val → Prop} (h : AtPlace (v :: vs) i k P) : AtPlace vs (i + 1) k P := by
  intro hk
  obtain ⟨v', h1, h2⟩ := h (by omega)
  refine ⟨v', ?_, h2⟩
  rw [show k - i = (k - (i + 1)) + 1 by omega] at h1
  simpa using h1

/-- A scalar that is the double `x`. -/
def Scalar (N : Doubles F) (x : F) (v : Val) : Prop := ∃ w, v = .one w ∧ IsReal N w x

theorem plyVertex_fills {N : Doubles F} {ps : List Property} (hv : ∀ p ∈ ps, p.Valid) {ws : List (List Char)} {vs : List Val} (hf : Fills ps ws vs) {xi yi zi : Nat} (hxy : xi ≠ yi) (hxz : xi ≠ zi) (hyz : yi ≠ zi) {x y z : F} (i : Nat)
    (hx : AtPlace vs i xi (Scalar N x)) (hy : AtPlace vs i yi (Scalar N y)) (hz : AtPlace vs i zi (Scalar N z)) {s : IS} (h : At s ws) (x0 y0 z0 : F) :
    (plyVertex N xi yi zi i (ps.map toProp) s (x0, y0, z0)).1.fail = false ∧
      (plyVertex N xi yi zi i (ps.map toProp) s (x0, y0, z0)).2 = (if i ≤ xi then x else x0, if i ≤ yi then y else y0, if i ≤ zi then z else z0) := by
  induction hf generalizing i s x0 y0 z0 with
  | nil ws =>
    refine ⟨h.fail, ?_⟩
    have key : ∀ {k : Nat} {u : F}, AtPlace [] i k (Scalar N u) → ¬ i ≤ k := by
      intro k u hk hik
      obtain ⟨v, h1, -⟩ := hk hik
      simp at h1
    rw [if_neg (key hx), if_neg (key hy), if_neg (key hz)]
    rfl
  | @one p ps w ws vs hp hf ih =>
    replace ih := fun x0 y0 z0 {s} (h : At s ws) => ih (fun q hq => hv q (by simp [hq])) (i + 1) hx.next hy.next hz.next h x0 y0 z0
    rw [List.map_cons]
    unfold plyVertex
    by_cases h1 : i = xi
    · subst h1
      obtain ⟨_, e, hw⟩ := hx.here
      cases e
      obtain ⟨s', e, h'⟩ := h.readDouble hw x0
      rw [if_pos rfl, e]
      dsimp only
      obtain ⟨i1, i2⟩ := ih x y0 z0 h'
      refine ⟨i1, i2.trans ?_⟩
      rw [if_neg (by omega), if_pos (Nat.le_refl _)]
      congr 2
      · exact if_congr (by omega) rfl rfl
      · exact if_congr (by omega) rfl rfl
    · rw [if_neg h1]
      by_cases h2 : i = yi
      · subst h2
        obtain ⟨_, e, hw⟩ := hy.here
        cases e
        obtain ⟨s', e, h'⟩ := h.readDouble hw y0
        rw [if_pos rfl, e]
        dsimp only
        obtain ⟨i1, i2⟩ := ih x0 y z0 h'
        refine ⟨i1, i2.trans ?_⟩
        rw [if_neg (show ¬ i + 1 ≤ i by omega), if_pos (Nat.le_refl i)]
        congr 1
        · exact if_congr (by omega) rfl rfl
        · congr 1
          exact if_congr (by omega) rfl rfl
      · rw [if_neg h2]
        by_cases h3 : i = zi
        · subst h3
          obtain ⟨_, e, hw⟩ := hz.here
          cases e
          obtain ⟨s', e, h'⟩ := h.readDouble hw z0
          rw [if_pos rfl, e]
          dsimp only
          obtain ⟨i1, i2⟩ := ih x0 y0 z h'
          refine ⟨i1, i2.trans ?_⟩
          rw [if_neg (show ¬ i + 1 ≤ i by omega), if_pos (Nat.le_refl i)]
          congr 1
          · exact if_congr (by omega) rfl rfl
          · congr 1
            exact if_congr (by omega) rfl rfl
        · rw [if_neg h3]
          obtain ⟨i1, i2⟩ := ih x0 y0 z0 (skip_one (hv p (by simp)) hp h)
          refine ⟨i1, i2.trans ?_⟩
          congr 1
          · exact if_congr (by omega) rfl rfl
          · congr 1
            · exact if_congr (by omega) rfl rfl
            · exact if_congr (by omega) rfl rfl
  | @many p ps c items ws vs hp hc hf ih =>
    replace ih := fun x0 y0 z0 {s} (h : At s ws) => ih (fun q hq => hv q (by simp [hq])) (i + 1) hx.next hy.next hz.next h x0 y0 z0
    have key : ∀ {k : Nat} {u : F}, AtPlace (.many items :: vs) i k (Scalar N u) → i ≠ k := by
      rintro k u hk rfl
      obtain ⟨w, e, -⟩ := hk.here
      cases e
    have h1 := key hx
    have h2 := key hy
    have h3 := key hz
    rw [List.map_cons]
    unfold plyVertex
    rw [if_neg h1, if_neg h2, if_neg h3]
    obtain ⟨i1, i2⟩ := ih x0 y0 z0 (skip_many (hv p (by simp)) hp hc h)
    refine ⟨i1, i2.trans ?_⟩
    congr 1
    · exact if_congr (by omega) rfl rfl
    · congr 1
      · exact if_congr (by omega) rfl rfl
      · exact if_congr (by omega) rfl rfl

theorem plyFace_fills {ps : List Property} (hv : ∀ p ∈ ps, p.Valid) {ws : List (List Char)} {vs : List Val} (hf : Fills ps ws vs) {vi : Nat} {f : List Nat} (i : Nat) (hi : AtPlace vs i vi fun v => ∃ items, v = .many items ∧ List.Forall₂ IsNat items f) {s : IS} (h : At s ws) (f0 : List Nat) :
    (plyFace vi i (ps.map toProp) s f0).1.fail = false ∧ (plyFace vi i (ps.map toProp) s f0).2 = f0 ++ if i ≤ vi then f else [] := by
  induction hf generalizing i s f0 with
  | nil ws =>
    refine ⟨h.fail, ?_⟩
    have : ¬ i ≤ vi := by
      intro hik
      obtain ⟨v, h1, -⟩ := hi hik
      simp at h1
    rw [if_neg this, List.append_nil]
    rfl
  | @one p ps w ws vs hp hf ih =>
    have hne : i ≠ vi := by
      rintro rfl
      obtain ⟨items, e, -⟩ := hi.here
      cases e
    rw [List.map_cons]
    unfold plyFace
    rw [if_neg hne]
    obtain ⟨i1, i2⟩ := ih (fun q hq => hv q (by simp [hq])) (i + 1) hi.next (skip_one (hv p (by simp)) hp h) f0
    refine ⟨i1, i2.trans ?_⟩
    congr 1
    exact if_congr (by omega) rfl rfl
  | @many p ps c items ws vs hp hc hf ih =>
    rw [List.map_cons]
    unfold plyFace
    by_cases h1 : i = vi
    · subst h1
      obtain ⟨_, e, hw⟩ := hi.here
      cases e
      obtain ⟨s', e, h'⟩ := h.readSize hc 0
      obtain ⟨s'', e', h''⟩ := h'.readIndices hw
      rw [if_pos rfl, e]
      dsimp only
      rw [e']
      dsimp only
      obtain ⟨i1, i2⟩ := ih (fun q hq => hv q (by simp [hq])) (i + 1) hi.next h'' (f0 ++ f)
      refine ⟨i1, i2.trans ?_⟩
      rw [if_neg (by omega), if_pos (Nat.le_refl i), List.append_nil]
    · rw [if_neg h1]
      obtain ⟨i1, i2⟩ := ih (fun q hq => hv q (by simp [hq])) (i + 1) hi.next (skip_many (hv p (by simp)) hp hc h) f0
      refine ⟨i1, i2.trans ?_⟩
      congr 1
      exact if_congr (by omega) rfl rfl

theorem coordinates_ne {ps : List Property} {n m : List Char} {i j : Nat} (hn : n ≠ m) (hi : Coordinate ps n i) (hj : Coordinate ps m j) : i ≠ j := by
  rintro rfl
  obtain ⟨⟨a, a1, -, a2⟩, -⟩ := hi
  obtain ⟨⟨b, b1, -, b2⟩, -⟩ := hj
  rw [a1] at b1
  cases b1
  exact hn (a2.symm.trans b2)

theorem vertexLine {N : Doubles F} {e : Element} (he : ∀ p ∈ e.props, p.Valid) {q : PlyPlan} (hx : Coordinate e.props "x".toList q.x) (hy : Coordinate e.props "y".toList q.y) (hz : Coordinate e.props "z".toList q.z) {l : List Char} {p : P3 F} (h : IsVertex N e.props l p) :
    PlyVertexLine N q (toElem e) l p := by
  obtain ⟨vs, x, y, z, wx, wy, wz, h0, h1, h2, h3, h4, h5, h6, h7, h8, h9⟩ := h
  obtain rfl := First.unique hx h1
  obtain rfl := First.unique hy h2
  obtain rfl := First.unique hz h3
  obtain ⟨i1, i2⟩ := plyVertex_fills (N := N) he h0 (coordinates_ne (by decide) h1 h2) (coordinates_ne (by decide) h1 h3) (coordinates_ne (by decide) h2 h3) (x := p.1) (y := p.2.1) (z := p.2.2) 0
    (fun _ => ⟨_, h4, wx, rfl, h7⟩) (fun _ => ⟨_, h5, wy, rfl, h8⟩) (fun _ => ⟨_, h6, wz, rfl, h9⟩) (at_of l) N.zero N.zero N.zero
  refine ⟨i2.trans ?_, i1⟩
  rw [if_pos (Nat.zero_le _), if_pos (Nat.zero_le _), if_pos (Nat.zero_le _)]

theorem faceLine {e : Element} (he : ∀ p ∈ e.props, p.Valid) {q : PlyPlan} (hi : Vertices e.props q.vi) {l : List Char} {f : List Nat} (h : IsFace e.props l f) : PlyFaceLine q (toElem e) l f := by
  obtain ⟨vs, i, ws, h0, h1, h2, h3⟩ := h
  obtain rfl := First.unique hi h1
  obtain ⟨i1, i2⟩ := plyFace_fills he h0 0 (fun _ => ⟨_, h2, ws, rfl, h3⟩) (at_of l) []
  refine ⟨i2.trans ?_, i1⟩
  rw [if_pos (Nat.zero_le _)]
  rfl

/-! ## The body -/

/-- The lines of one element are read. -/
theorem plyLoop_part (N : Doubles F) (dflt : D) (q : PlyPlan) (hq : q.ve ≠ q.fe) (i : Nat) (e : Elem) (es : List (Nat × Elem)) {part : List (List Char)} {ps : List (P3 F)} {fs : List (List Nat)}
    (hv : i = q.ve → List.Forall₂ (PlyVertexLine N q e) part ps) (hf : i = q.fe → List.Forall₂ (PlyFaceLine q e) part fs) (ls : List (List Char)) (a : Acc F D) :
    ∃ b : Acc F D, b.soup = ⟨a.soup.points ++ (if i = q.ve then ps else []), a.soup.faces ++ (if i = q.fe then fs.flatMap fan else []), a.soup.data ++ List.replicate (if i = q.fe then fs.flatMap fan else []).length dflt⟩ ∧
      plyLoop N dflt q (part ++ ls) (advance ((i, { e with count := part.length }) :: es)) a = plyLoop N dflt q ls (advance es) b := by
  induction part generalizing ps fs a with
  | nil =>
    refine ⟨a, ?_, rfl⟩
    have h1 : (if i = q.ve then ps else []) = [] := by
      split
      · next h => cases hv h; rfl
      · rfl
    have h2 : (if i = q.fe then fs.flatMap fan else []) = [] := by
      split
      · next h => cases hf h; rfl
      · rfl
    rw [h1, h2]
    simp
  | cons l part ih =>
    rw [List.cons_append, List.length_cons, show advance ((i, { e with count := part.length + 1 }) :: es) = (i, { e with count := part.length + 1 }) :: es from rfl]
    by_cases h1 : i = q.ve
    · have h2 : i ≠ q.fe := fun h => hq (h1.symm.trans h)
      cases hv h1 with
      | @cons _ p _ ps' hl hr =>
        obtain ⟨b, hb, hloop⟩ := ih (ps := ps') (fs := []) (fun _ => hr) (fun h => absurd h h2) ⟨(a.soup.addVertex p).1, a.stored + 1⟩
        have hline : plyLine N dflt q l ((i, { e with count := part.length + 1 }) :: es) a = (true, advance ((i, { e with count := part.length }) :: es), ⟨(a.soup.addVertex p).1, a.stored + 1⟩) := by
          unfold plyLine
          dsimp only
          rw [if_pos h1]
          obtain ⟨g1, g2⟩ := hl
          rw [if_neg (by rw [g2]; simp), g1]
          rfl
        refine ⟨b, ?_, (plyLoop_cons hline _).trans hloop⟩
        rw [hb, if_pos h1, if_pos h1, if_neg h2, if_neg h2]
        simp [Soup.addVertex]
    · by_cases h2 : i = q.fe
      · cases hf h2 with
        | @cons _ f _ fs' hl hr =>
          obtain ⟨b, hb, hloop⟩ := ih (ps := []) (fs := fs') (fun h => absurd h h1) (fun _ => hr) ⟨addFaces a.soup dflt (fanFaces f), a.stored + f.length⟩
          have hline : plyLine N dflt q l ((i, { e with count := part.length + 1 }) :: es) a = (true, advance ((i, { e with count := part.length }) :: es), ⟨addFaces a.soup dflt (fanFaces f), a.stored + f.length⟩) := by
            unfold plyLine
            dsimp only
            rw [if_neg h1, if_pos h2]
            obtain ⟨g1, g2⟩ := hl
            rw [if_neg (by rw [g2]; simp), g1]
            rfl
          refine ⟨b, ?_, (plyLoop_cons hline _).trans hloop⟩
          rw [hb, if_neg h1, if_neg h1, if_pos h2, if_pos h2]
          simp [addFaces_eq, fanFaces_eq]
      · obtain ⟨b, hb, hloop⟩ := ih (ps := ps) (fs := fs) (fun h => absurd h h1) (fun h => absurd h h2) a
        have hline : plyLine N dflt q l ((i, { e with count := part.length + 1 }) :: es) a = (true, advance ((i, { e with count := part.length }) :: es), a) := by
          unfold plyLine
          dsimp only
          rw [if_neg h1, if_neg h2]
          rfl
        exact ⟨b, hb, (plyLoop_cons hline _).trans hloop⟩

theorem plyLoop_parts (N : Doubles F) (dflt : D) (q : PlyPlan) (hq : q.ve ≠ q.fe) {els : List Elem} {parts : List (List (List Char))} (hc : List.Forall₂ (fun e part => part.length = e.count) els parts) (n : Nat) {ps : List (P3 F)} {fs : List (List Nat)}
    (hv : ∀ k e part, n + k = q.ve → els[k]? = some e → parts[k]? = some part → List.Forall₂ (PlyVertexLine N q e) part ps)
    (hf : ∀ k e part, n + k = q.fe → els[k]? = some e → parts[k]? = some part → List.Forall₂ (PlyFaceLine q e) part fs) (hvn : q.ve < n + els.length) (hfn : q.fe < n + els.length) (a : Acc F D) :
    ∃ b : Acc F D, b.soup = ⟨a.soup.points ++ (if n ≤ q.ve then ps else []), a.soup.faces ++ (if n ≤ q.fe then fs.flatMap fan else []), a.soup.data ++ List.replicate (if n ≤ q.fe then fs.flatMap fan else []).length dflt⟩ ∧
      plyLoop N dflt q parts.flatten (advance (number n els)) a = (true, [], b) := by
  induction hc generalizing n a with
  | nil =>
    rw [List.length_nil] at hvn hfn
    refine ⟨a, ?_, rfl⟩
    rw [if_neg (by omega), if_neg (by omega)]
    simp
  | @cons e part els parts h1 h2 ih =>
    obtain ⟨b, hb, hloop⟩ := plyLoop_part N dflt q hq n e (number (n + 1) els) (part := part) (ps := ps) (fs := fs) (fun h => hv 0 e part (by omega) rfl rfl) (fun h => hf 0 e part (by omega) rfl rfl) parts.flatten a
    rw [List.length_cons] at hvn hfn
    obtain ⟨b', hb', hloop'⟩ := ih (n + 1) (fun k e' part' hk he hp => hv (k + 1) e' part' (by omega) (by simpa using he) (by simpa using hp)) (fun k e' part' hk he hp => hf (k + 1) e' part' (by omega) (by simpa using he) (by simpa using hp)) (by omega) (by omega) b
    refine ⟨b', ?_, ?_⟩
    · rw [hb', hb]
      dsimp only
      have e1 : (if n ≤ q.ve then ps else []) = (if n = q.ve then ps else []) ++ if n + 1 ≤ q.ve then ps else [] := by
        rcases Nat.lt_trichotomy n q.ve with h | h | h
        · rw [if_pos (by omega), if_neg (by omega), if_pos (by omega)]; rfl
        · rw [if_pos (by omega), if_pos (by omega), if_neg (by omega), List.append_nil]
        · rw [if_neg (by omega), if_neg (by omega), if_neg (by omega)]; rfl
      have e2 : (if n ≤ q.fe then fs.flatMap fan else []) = (if n = q.fe then fs.flatMap fan else []) ++ if n + 1 ≤ q.fe then fs.flatMap fan else [] := by
        rcases Nat.lt_trichotomy n q.fe with h | h | h
        · rw [if_pos (by omega), if_neg (by omega), if_pos (by omega)]; rfl
        · rw [if_pos (by omega), if_pos (by omega), if_neg (by omega), List.append_nil]
        · rw [if_neg (by omega), if_neg (by omega), if_neg (by omega)]; rfl
      rw [e1, e2, List.length_append, List.replicate_add]
      simp only [List.append_assoc]
    · rw [List.flatten_cons, ← hloop']
      have : ({ e with count := part.length } : Elem) = e := by rw [h1]
      rw [this] at hloop
      exact hloop

/-! ## The text -/

theorem lines_of {t : List Char} {ls : List (List Char)} (h : LinesOf t ls) : lines (of t) = ls := by
  obtain ⟨hn, rfl | ⟨init, last, rfl, hl, rfl⟩⟩ := h
  · exact lines_textOf ls hn
  · have hw : ∀ (init : List (List Char)), (∀ l ∈ init, '\n' ∉ l) → lines (of (textOf init ++ last)) = init ++ [last] := by
      intro init
      induction init with
      | nil => intro _; exact lines_last (hn last (by simp)) hl
      | cons l init ih =>
        intro hi
        rw [show textOf (l :: init) ++ last = l ++ '\n' :: (textOf init ++ last) by simp [textOf], lines_cons (hi l (by simp)), ih fun x hx => hi x (by simp [hx])]
        rfl
    exact hw init fun l hl' => hn l (by simp [hl'])

theorem linesOf (t : List Char) : LinesOf t (lines (of t)) := by
  have key : ∀ (k : Nat) (t : List Char), t.length ≤ k → t = textOf (lines (of t)) ∨ ∃ init last, lines (of t) = init ++ [last] ∧ last ≠ [] ∧ t = textOf init ++ last := by
    intro k
    induction k with
    | zero => intro t ht; cases t with
      | nil => exact .inl rfl
      | cons _ _ => simp at ht
    | succ k ih =>
      intro t ht
      rcases first_line t with rfl | ⟨h1, h2⟩ | ⟨l, r, h1, rfl⟩
      · exact .inl rfl
      · rw [lines_last h2 h1]
        exact .inr ⟨[], t, rfl, h1, rfl⟩
      · rw [lines_cons h1]
        rcases ih r (by simp at ht; omega) with e | ⟨init, last, e1, e2, e3⟩
        · left
          conv_lhs => rw [e]
          simp [textOf]
        · right
          refine ⟨l :: init, last, by rw [e1]; rfl, e2, ?_⟩
          conv_lhs => rw [e3]
          simp [textOf]
  exact ⟨lines_no_nl _ t (Nat.le_refl _), key _ t (Nat.le_refl _)⟩

end Kigumi.Text.Ply

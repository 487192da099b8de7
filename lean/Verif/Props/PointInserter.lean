import Verif.Proofs.PointInserter

/-!
# C37: intersection points
-/
namespace Kigumi.PointInserter
open Kigumi Outcome Region Spec.Triangles FaceFace Geo

variable {K : Kernel} {base : List P3}

theorem not_onLine {A B C : P3} (h : ¬ Spec.Defects.Collinear A B C) (u v : P3) : ¬ (OnLine u v A ∧ OnLine u v B ∧ OnLine u v C) := by
  rintro ⟨h1, h2, h3⟩
  apply h
  refine ⟨u, sub v u, ?_⟩
  have key : ∀ X, OnLine u v X → ∃ t : ℚ, X = ⟨u.x + t * (sub v u).x, u.y + t * (sub v u).y, u.z + t * (sub v u).z⟩ := by
    rintro X ⟨s, t, h, rfl⟩
    have : s = 1 - t := by linarith
    subst this
    exact ⟨t, p3_ext (by simp only [sub]; ring) (by simp only [sub]; ring) (by simp only [sub]; ring)⟩
  intro q hq
  simp only [List.mem_cons, List.not_mem_nil, or_false] at hq
  rcases hq with rfl | rfl | rfl
  · exact key _ h1
  · exact key _ h2
  · exact key _ h3

/-- The key is known with this id. -/
def Found (st : State) : Key → Nat → Prop
  | .vertex i, id => i = id
  | .line k, id => PointList.find st.lines k = some id
  | .plane k, id => PointList.find st.planes k = some id

structure Inv (base : List P3) (st : State) : Prop where
  check : st.points.check = false
  extends_ : ∃ new, st.points.points = base ++ new
  known : ∀ k id w, Found st k id → KeyPoint base k w → st.points.points[id]? = some w

theorem find_append {A : Type} [DecidableEq A] (l : List (A × Nat)) (k k' : A) (n : Nat) : PointList.find (l ++ [(k, n)]) k' = match PointList.find l k' with
    | some i => some i
    | none => if k = k' then some n else none := by
  induction l with
  | nil => rfl
  | cons e l ih =>
    obtain ⟨k0, v⟩ := e
    show (if k0 = k' then some v else PointList.find (l ++ [(k, n)]) k') = _
    rw [ih]
    show _ = match (if k0 = k' then some v else PointList.find l k') with
      | some i => some i
      | none => if k = k' then some n else none
    by_cases h : k0 = k'
    · simp [h]
    · simp only [h, if_false]

theorem found_fun {st : State} {k : Key} {i j : Nat} (h1 : Found st k i) (h2 : Found st k j) : i = j := by
  cases k <;> simp only [Found] at h1 h2
  · exact h1.symm.trans h2
  · rw [h1] at h2; exact Option.some.inj h2
  · rw [h1] at h2; exact Option.some.inj h2

theorem get_append {l : List P3} {i : Nat} {x : P3} (h : l[i]? = some x) (m : List P3) : (l ++ m)[i]? = some x := by
  obtain ⟨hl, e⟩ := List.getElem?_eq_some_iff.1 h
  rw [List.getElem?_append_left hl]; exact h

theorem at_some {l : List P3} {i : Nat} {x : P3} (h : l[i]? = some x) : at! l i = ok x := by
  unfold at!; rw [h]

theorem insert_off {l : PointList P3} (h : l.check = false) (p : P3) : l.insert p = (⟨l.points ++ [p], l.map, l.check⟩, l.points.length) := by
  unfold PointList.insert; rw [h]; rfl

theorem keyPoint_fun {k : Key} {w w' : P3} (h : KeyPoint base k w) (h' : KeyPoint base k w') : w = w' := by
  cases k with
  | vertex i => exact Option.some.inj (h.symm.trans h')
  | line k =>
    obtain ⟨A, B, P, Q, a1, b1, p1, q1, -, -, o⟩ := h
    obtain ⟨A', B', P', Q', a2, b2, p2, q2, -, -, o'⟩ := h'
    rw [a1] at a2; rw [b1] at b2; rw [p1] at p2; rw [q1] at q2
    cases a2; cases b2; cases p2; cases q2
    exact o'.2.2 w o.1 o.2.1
  | plane k =>
    obtain ⟨A, B, C, P, Q, a1, b1, c1, p1, q1, -, -, o⟩ := h
    obtain ⟨A', B', C', P', Q', a2, b2, c2, p2, q2, -, -, o'⟩ := h'
    rw [a1] at a2; rw [b1] at b2; rw [c1] at c2; rw [p1] at p2; rw [q1] at q2
    cases a2; cases b2; cases c2; cases p2; cases q2
    exact o'.2.2 w o.1 o.2.1

/-- One insertion. -/
theorem step (hL : LineLine K.lineLine) (hP : PlaneLine K.planeLine) {st : State} (hi : Inv base st) {k : Key} {w : P3} (hk : KeyPoint base k w) :
    ∃ st' id, insertKey K st k = ok (st', id) ∧ Inv base st' ∧ (∃ new, st'.points.points = st.points.points ++ new) ∧ Found st' k id ∧ st'.points.points[id]? = some w ∧ ∀ k' i, Found st k' i → Found st' k' i := by
  obtain ⟨new, hb⟩ := hi.extends_
  have up : ∀ {i : Nat} {x : P3}, base[i]? = some x → at! st.points.points i = ok x := by
    intro i x h; rw [hb]; exact at_some (get_append h _)
  cases k with
  | vertex i =>
    refine ⟨st, i, rfl, hi, ⟨[], by simp⟩, rfl, ?_, fun _ _ h => h⟩
    rw [hb]; exact get_append hk _
  | line k =>
    cases hf : PointList.find st.lines k with
    | some id => exact ⟨st, id, by simp only [insertKey, hf], hi, ⟨[], by simp⟩, hf, hi.known (.line k) _ _ hf hk, fun _ _ h => h⟩
    | none =>
      obtain ⟨A, B, P, Q, a1, b1, p1, q1, nab, npq, o⟩ := id hk
      have e : K.lineLine A B P Q = w := hL A B P Q w nab npq o
      let st' : State := { st with points := ⟨st.points.points ++ [w], st.points.map, st.points.check⟩, lines := st.lines ++ [(k, st.points.points.length)] }
      have he : insertKey K st (.line k) = ok (st', st.points.points.length) := by
        simp only [insertKey, hf, up a1, up b1, up p1, up q1, Outcome.bind, insert_off hi.check, e]
        rfl
      have hg : (st.points.points ++ [w])[st.points.points.length]? = some w := by simp
      have hm : ∀ k' i, Found st k' i → Found st' k' i := by
        intro k' i h
        cases k' with
        | vertex => exact h
        | plane => exact h
        | line k' =>
          show PointList.find (st.lines ++ _) k' = some i
          rw [find_append, show PointList.find st.lines k' = some i from h]
      refine ⟨st', _, he, ⟨hi.check, ⟨new ++ [w], by show st.points.points ++ [w] = _; rw [hb, List.append_assoc]⟩, ?_⟩, ⟨[w], rfl⟩, ?_, hg, hm⟩
      · intro k' id x h hx
        have old : Found st k' id → (st.points.points ++ [w])[id]? = some x := fun h => get_append (hi.known _ _ _ h hx) _
        cases k' with
        | vertex => exact old h
        | plane => exact old h
        | line k' =>
          have h' : PointList.find (st.lines ++ [(k, st.points.points.length)]) k' = some id := h
          rw [find_append] at h'
          cases hf' : PointList.find st.lines k' with
          | some j => rw [hf'] at h'; exact old (hf'.trans h')
          | none =>
            rw [hf'] at h'
            dsimp only at h'
            split at h'
            · next e' =>
              subst e'; cases h'
              rw [keyPoint_fun hx hk]; exact hg
            · cases h'
      · show PointList.find (st.lines ++ _) k = _
        rw [find_append, hf]; simp
  | plane k =>
    cases hf : PointList.find st.planes k with
    | some id => exact ⟨st, id, by simp only [insertKey, hf], hi, ⟨[], by simp⟩, hf, hi.known (.plane k) _ _ hf hk, fun _ _ h => h⟩
    | none =>
      obtain ⟨A, B, C, P, Q, a1, b1, c1, p1, q1, nab, npq, o⟩ := id hk
      have e : K.planeLine A B C P Q = w := hP A B C P Q w (not_onLine nab) npq o
      let st' : State := { st with points := ⟨st.points.points ++ [w], st.points.map, st.points.check⟩, planes := st.planes ++ [(k, st.points.points.length)] }
      have he : insertKey K st (.plane k) = ok (st', st.points.points.length) := by
        simp only [insertKey, hf, up a1, up b1, up c1, up p1, up q1, Outcome.bind, insert_off hi.check, e]
        rfl
      have hg : (st.points.points ++ [w])[st.points.points.length]? = some w := by simp
      have hm : ∀ k' i, Found st k' i → Found st' k' i := by
        intro k' i h
        cases k' with
        | vertex => exact h
        | line => exact h
        | plane k' =>
          show PointList.find (st.planes ++ _) k' = some i
          rw [find_append, show PointList.find st.planes k' = some i from h]
      refine ⟨st', _, he, ⟨hi.check, ⟨new ++ [w], by show st.points.points ++ [w] = _; rw [hb, List.append_assoc]⟩, ?_⟩, ⟨[w], rfl⟩, ?_, hg, hm⟩
      · intro k' id x h hx
        have old : Found st k' id → (st.points.points ++ [w])[id]? = some x := fun h => get_append (hi.known _ _ _ h hx) _
        cases k' with
        | vertex => exact old h
        | line => exact old h
        | plane k' =>
          have h' : PointList.find (st.planes ++ [(k, st.points.points.length)]) k' = some id := h
          rw [find_append] at h'
          cases hf' : PointList.find st.planes k' with
          | some j => rw [hf'] at h'; exact old (hf'.trans h')
          | none =>
            rw [hf'] at h'
            dsimp only at h'
            split at h'
            · next e' =>
              subst e'; cases h'
              rw [keyPoint_fun hx hk]; exact hg
            · cases h'
      · show PointList.find (st.planes ++ _) k = _
        rw [find_append, hf]; simp

/-- A call with a code that the symbolic intersection of its two (non-degenerate) faces reports. -/
def Reported (base : List P3) (x : Call) (a b c p q r : P3) : Prop :=
  Two base x.left.a x.left.b x.left.c x.right.a x.right.b x.right.c a b c p q r ∧
    ∃ l, intersect base x.left.a x.left.b x.left.c x.right.a x.right.b x.right.c = ok l ∧ x.code ∈ l

theorem shape_vertices (code a b c : Nat) (off : Nat) {s : Shape} (h : shapeOf (code.testBit off) (code.testBit (off + 1)) (code.testBit (off + 2)) a b c = some s) :
    SameSet (vertices off code a b c) (ids s) := by
  intro i
  unfold vertices
  revert h
  cases code.testBit off <;> cases code.testBit (off + 1) <;> cases code.testBit (off + 2) <;> intro h <;> simp only [shapeOf, reduceCtorEq, Option.some.injEq] at h <;> subst h <;> simp [ids]
  tauto

theorem shape_some {pts : List P3} {a b c : Nat} {A B C : P3} (ha : pts[a]? = some A) (hb : pts[b]? = some B) (hc : pts[c]? = some C) (hn : dot (normal A B C) (normal A B C) ≠ 0)
    (code off : Nat) (hex : ∃ x, Relint off code A B C x) : ∃ s, shapeOf (code.testBit off) (code.testBit (off + 1)) (code.testBit (off + 2)) a b c = some s ∧ Proper s ∧ ∀ x, Relint off code A B C x ↔ InShape pts s x := by
  obtain ⟨n1, n2, n3⟩ := normal_distinct hn
  have ne : ∀ {i j : Nat} {X Y : P3}, pts[i]? = some X → pts[j]? = some Y → X ≠ Y → i ≠ j := by
    rintro i j X Y h1 h2 hne rfl
    rw [h1] at h2; exact hne (Option.some.inj h2)
  have m1 := ne ha hb n1; have m2 := ne hb hc n2; have m3 := ne hc ha n3
  have key : ∀ s, shapeOf (code.testBit off) (code.testBit (off + 1)) (code.testBit (off + 2)) a b c = some s → Proper s := by
    intro s h
    revert h
    cases code.testBit off <;> cases code.testBit (off + 1) <;> cases code.testBit (off + 2) <;> intro h <;> simp only [shapeOf, reduceCtorEq, Option.some.injEq] at h <;> subst h <;> simp only [Proper]
    · exact m2
    · exact m3
    · exact m1
    · exact ⟨m1, m2, Ne.symm m3⟩
  cases hs : shapeOf (code.testBit off) (code.testBit (off + 1)) (code.testBit (off + 2)) a b c with
  | some s => exact ⟨s, rfl, key s hs, fun x => open_shape ha hb hc hn hs x⟩
  | none =>
    exfalso
    obtain ⟨x, hx⟩ := hex
    unfold Relint at hx
    revert hs hx
    cases code.testBit off <;> cases code.testBit (off + 1) <;> cases code.testBit (off + 2) <;> intro hs <;> simp only [shapeOf, reduceCtorEq] at hs
    exact open_none A B C x

/-- What a reported call amounts to. -/
theorem reported (hnd : base.Nodup) {x : Call} {a b c p q r : P3} (h : Reported base x a b c p q r) : ∃ s t w, Proper s ∧ Proper t ∧
    SameSet (vertices 0 x.code x.left.a x.left.b x.left.c) (ids s) ∧ SameSet (vertices 3 x.code x.right.a x.right.b x.right.c) (ids t) ∧
    Relint 0 x.code a b c w ∧ Relint 3 x.code p q r w ∧ KeyPoint base (keyShape s t) w ∧ Apart s t ∧ ∀ st, call K st x = insertKey K st (keyShape s t) := by
  obtain ⟨T, l, e, hm⟩ := h
  obtain ⟨l', e', -, hl⟩ := C34_corners T
  rw [e] at e'; cases e'
  obtain ⟨hc, hmeet⟩ := (hl _).1 hm
  obtain ⟨w, ⟨h1, h2⟩, hu⟩ := id hmeet
  obtain ⟨s, hs, ps, is⟩ := shape_some T.ha T.hb T.hc (normal_ne T.left) x.code 0 ⟨w, h1⟩
  obtain ⟨t, ht, pt, it⟩ := shape_some T.hp T.hq T.hr (normal_ne T.right) x.code 3 ⟨w, h2⟩
  obtain ⟨w', i1, i2, hk, hap⟩ := key_point hnd (s := s) (t := t) ⟨w, ⟨(is w).1 h1, (it w).1 h2⟩, fun y y1 y2 => hu y ((is y).2 y1) ((it y).2 y2)⟩
  refine ⟨s, t, w', ps, pt, shape_vertices _ _ _ _ 0 hs, shape_vertices _ _ _ _ 3 ht, (is w').2 i1, (it w').2 i2, hk, hap, fun st => ?_⟩
  exact insert_shape K st x.code hc _ _ _ _ _ _ hs ht

/-- Two calls for the same pair have the same key. -/
theorem same_key {s t s' t' : Shape} (hs : Proper s) (ht : Proper t) (hs' : Proper s') (ht' : Proper t') (ha : Apart s t) (ha' : Apart s' t') {l r l' r' : List Nat}
    (h1 : SameSet l (ids s)) (h2 : SameSet r (ids t)) (h3 : SameSet l' (ids s')) (h4 : SameSet r' (ids t')) (h : SamePair l r l' r') : keyShape s t = keyShape s' t' := by
  have tr : ∀ {a b c d : List Nat}, SameSet a b → SameSet c d → SameSet a c → SameSet b d := fun h1 h2 h3 i => (h1 i).symm.trans ((h3 i).trans (h2 i))
  rcases h with ⟨e1, e2⟩ | ⟨e1, e2⟩
  · exact key_alike (alike hs hs' (tr h1 h3 e1)) (alike ht ht' (tr h2 h4 e2)) ha
  · exact (key_alike (alike hs ht' (tr h1 h4 e1)) (alike ht hs' (tr h2 h3 e2)) ha).trans (key_exch ha').symm

theorem run_ok (hL : LineLine K.lineLine) (hP : PlaneLine K.planeLine) (hnd : base.Nodup) (xs : List Call) : ∀ {st : State}, Inv base st → (∀ x ∈ xs, ∃ a b c p q r, Reported base x a b c p q r) →
    ∃ st' ids, run K st xs = ok (st', ids) ∧ Inv base st' ∧ ids.length = xs.length ∧ (∃ new, st'.points.points = st.points.points ++ new) ∧ (∀ k i, Found st k i → Found st' k i) ∧
      ∀ (n : Nat) (x : Call) (id : Nat), xs[n]? = some x → ids[n]? = some id → ∀ k w, KeyPoint base k w → (∀ st, call K st x = insertKey K st k) →
        st'.points.points[id]? = some w ∧ Found st' k id := by
  induction xs with
  | nil => intro st hi _; exact ⟨st, [], rfl, hi, rfl, ⟨[], by simp⟩, fun _ _ h => h, by intro n x id h; simp at h⟩
  | cons x xs ih =>
    intro st hi hx
    obtain ⟨a, b, c, p, q, r, hr⟩ := hx x (by simp)
    obtain ⟨s, t, w, -, -, -, -, r1, r2, hk, -, hc⟩ := reported (K := K) hnd hr
    obtain ⟨st1, id1, e1, hi1, ⟨new1, n1⟩, f1, g1, m1⟩ := step hL hP hi hk
    obtain ⟨st2, ids2, e2, hi2, len, ⟨new2, n2⟩, m2, H⟩ := ih hi1 (fun y hy => hx y (by simp [hy]))
    refine ⟨st2, id1 :: ids2, ?_, hi2, by simp [len], ⟨new1 ++ new2, by rw [n2, n1, List.append_assoc]⟩, fun k i h => m2 k i (m1 k i h), ?_⟩
    · show (call K st x).bind _ = _
      rw [hc, e1]
      show (run K st1 xs).bind _ = _
      rw [e2]; rfl
    · intro n y id hy hid k' w' hk' hc'
      cases n with
      | zero =>
        simp only [List.getElem?_cons_zero, Option.some.injEq] at hy hid
        subst hy; subst hid
        obtain ⟨st3, id3, e3, -, -, f3, g3, -⟩ := step hL hP hi hk'
        rw [← hc', hc, e1] at e3
        cases e3
        exact ⟨by rw [n2]; exact get_append g3 _, m2 _ _ f3⟩
      | succ n => exact H n y id hy hid k' w' hk' hc'

/-- **Every reported pair gets the id of the only point that is common to the relative interiors of both simplices, and the same pair always gets the same id**: for a list of
distinct points and any sequence of calls with codes that the symbolic intersection reports, in any order, for faces with vertices in any order and with the operands in any
order.  No call fails; points are only appended, so that ids keep their meaning.  For every kernel whose constructions return the only common point of two lines or of a
plane and a line. -/
theorem C37_points (hL : LineLine K.lineLine) (hP : PlaneLine K.planeLine) (pl : PointList P3) (hch : pl.check = false) (hnd : pl.points.Nodup) (xs : List Call)
    (hx : ∀ x ∈ xs, ∃ a b c p q r, Reported pl.points x a b c p q r) :
    ∃ st ids, run K (start pl) xs = ok (st, ids) ∧ ids.length = xs.length ∧ (∃ new, st.points.points = pl.points ++ new) ∧
      (∀ (n : Nat) x id, xs[n]? = some x → ids[n]? = some id → ∀ a b c p q r, Reported pl.points x a b c p q r →
        ∃ w, st.points.points[id]? = some w ∧ OnlyCommon (Relint 0 x.code a b c) (Relint 3 x.code p q r) w) ∧
      (∀ (n m : Nat) x y i j, xs[n]? = some x → xs[m]? = some y → ids[n]? = some i → ids[m]? = some j →
        SamePair (vertices 0 x.code x.left.a x.left.b x.left.c) (vertices 3 x.code x.right.a x.right.b x.right.c)
          (vertices 0 y.code y.left.a y.left.b y.left.c) (vertices 3 y.code y.right.a y.right.b y.right.c) → i = j) := by
  have hi : Inv pl.points (start pl) := ⟨hch, ⟨[], by simp [start]⟩, by
    intro k id w h hk
    cases k with
    | vertex => cases h; exact hk
    | line => simp [Found, start, PointList.find] at h
    | plane => simp [Found, start, PointList.find] at h⟩
  obtain ⟨st, ids', e, hi', len, new, -, H⟩ := run_ok hL hP hnd xs hi hx
  refine ⟨st, ids', e, len, new, ?_, ?_⟩
  · intro n x id hn hid a b c p q r hr
    obtain ⟨s, t, w, -, -, -, -, r1, r2, hk, -, hc⟩ := reported (K := K) hnd hr
    refine ⟨w, (H n x id hn hid _ w hk hc).1, r1, r2, ?_⟩
    obtain ⟨T, l, e, hm⟩ := hr
    obtain ⟨l', e', -, hl⟩ := C34_corners T
    rw [e] at e'; cases e'
    obtain ⟨-, v, -, hu⟩ := (hl _).1 hm
    intro y y1 y2
    rw [hu y y1 y2, hu w r1 r2]
  · intro n m x y i j hn hm hi hj hsame
    obtain ⟨a, b, c, p, q, r, hr⟩ := hx x (List.mem_of_getElem? hn)
    obtain ⟨a', b', c', p', q', r', hr'⟩ := hx y (List.mem_of_getElem? hm)
    obtain ⟨s, t, w, ps, pt, v1, v2, -, -, hk, ha, hc⟩ := reported (K := K) hnd hr
    obtain ⟨s', t', w', ps', pt', v1', v2', -, -, hk', ha', hc'⟩ := reported (K := K) hnd hr'
    have e1 := (H n x i hn hi _ w hk hc).2
    have e2 := (H m y j hm hj _ w' hk' hc').2
    rw [← same_key ps pt ps' pt' ha ha' v1 v2 v1' v2' hsame] at e2
    exact found_fun e1 e2

/-- Simplices of faces that meet only in common simplices: those of both calls that contain one point have the same vertices.  This holds on each side if the faces of each operand do not
overlap. -/
def Proper2 (base : List P3) (x y : Call) : Prop :=
  ∀ a b c p q r a' b' c' p' q' r', Reported base x a b c p q r → Reported base y a' b' c' p' q' r' → ∀ w,
    (Relint 0 x.code a b c w → Relint 0 y.code a' b' c' w →
      SameSet (vertices 0 x.code x.left.a x.left.b x.left.c) (vertices 0 y.code y.left.a y.left.b y.left.c)) ∧
    (Relint 3 x.code p q r w → Relint 3 y.code p' q' r' w →
      SameSet (vertices 3 x.code x.right.a x.right.b x.right.c) (vertices 3 y.code y.right.a y.right.b y.right.c))

/-- **One id for each point**: if the faces of two calls meet only in common simplices, for each operand, the calls get the same id exactly if they have the same intersection point. -/
theorem C37_unique (hL : LineLine K.lineLine) (hP : PlaneLine K.planeLine) (pl : PointList P3) (hch : pl.check = false) (hnd : pl.points.Nodup) (xs : List Call)
    (hx : ∀ x ∈ xs, ∃ a b c p q r, Reported pl.points x a b c p q r) {st : State} {ids : List Nat} (he : run K (start pl) xs = ok (st, ids))
    (n m : Nat) (x y : Call) (hprop : Proper2 pl.points x y) (i j : Nat) (hn : xs[n]? = some x) (hm : xs[m]? = some y) (hi : ids[n]? = some i) (hj : ids[m]? = some j) :
    st.points.points[i]? = st.points.points[j]? ↔ i = j := by
  obtain ⟨st', ids', e, -, -, H1, H2⟩ := C37_points hL hP pl hch hnd xs hx
  rw [he] at e; cases e
  refine ⟨fun h => ?_, fun h => by rw [h]⟩
  obtain ⟨a, b, c, p, q, r, hr⟩ := hx x (List.mem_of_getElem? hn)
  obtain ⟨a', b', c', p', q', r', hr'⟩ := hx y (List.mem_of_getElem? hm)
  obtain ⟨w, g, w1, w2, -⟩ := H1 n x i hn hi _ _ _ _ _ _ hr
  obtain ⟨w', g', w1', w2', -⟩ := H1 m y j hm hj _ _ _ _ _ _ hr'
  have ew : w = w' := by rw [g, g'] at h; exact Option.some.inj h
  subst ew
  obtain ⟨p1, p2⟩ := hprop _ _ _ _ _ _ _ _ _ _ _ _ hr hr' w
  exact H2 n m x y i j hn hm hi hj (Or.inl ⟨p1 w1 w1', p2 w2 w2'⟩)

/-- **With the points of both operands** (C38): the constructor of `Corefine` passes a list of distinct points without check. -/
theorem C37_operands (hL : LineLine K.lineLine) (hP : PlaneLine K.planeLine) (left right : List P3) (xs : List Call)
    (hx : ∀ x ∈ xs, ∃ a b c p q r, Reported (corefinePoints left right).1.points x a b c p q r) :
    ∃ st ids, run K (start (corefinePoints left right).1) xs = ok (st, ids) ∧ ids.length = xs.length ∧
      (∃ new, st.points.points = (corefinePoints left right).1.points ++ new) ∧
      ∀ (n : Nat) x id, xs[n]? = some x → ids[n]? = some id → ∀ a b c p q r, Reported (corefinePoints left right).1.points x a b c p q r →
        ∃ w, st.points.points[id]? = some w ∧ OnlyCommon (Relint 0 x.code a b c) (Relint 3 x.code p q r) w := by
  obtain ⟨st, ids, e, len, new, h, -⟩ := C37_points hL hP (corefinePoints left right).1 rfl (Props.C38_operands left right).2.2.1 xs hx
  exact ⟨st, ids, e, len, new, h⟩

/-! ### Constructions that satisfy the contract -/

def formulaLine (a b p q : P3) : P3 :=
  let n := cross (sub b a) (sub q p)
  let t := dot (cross (sub p a) (sub q p)) n / dot n n
  ⟨a.x + t * (b.x - a.x), a.y + t * (b.y - a.y), a.z + t * (b.z - a.z)⟩

def formulaPlane (a b c p q : P3) : P3 :=
  let n := normal a b c
  let t := dot n (sub a p) / dot n (sub q p)
  ⟨p.x + t * (q.x - p.x), p.y + t * (q.y - p.y), p.z + t * (q.z - p.z)⟩

theorem formulaLine_ok : LineLine formulaLine := by
  intro a b p q x hab hpq ho
  obtain ⟨h1, h2, hu⟩ := ho
  have hn : dot (cross (sub b a) (sub q p)) (cross (sub b a) (sub q p)) ≠ 0 := by
    intro h0
    obtain ⟨k, hk⟩ := parallel (ne_sub hpq) h0
    have hb := hu ⟨x.x + (b.x - a.x), x.y + (b.y - a.y), x.z + (b.z - a.z)⟩ ?_ ?_
    · apply hab
      have e1 := congrArg Spec.P3.x hb; have e2 := congrArg Spec.P3.y hb; have e3 := congrArg Spec.P3.z hb
      simp only at e1 e2 e3
      exact p3_ext (by linarith) (by linarith) (by linarith)
    · obtain ⟨s, t, h, rfl⟩ := h1
      exact ⟨s - 1, t + 1, by linarith, p3_ext (by simp only []; ring) (by simp only []; ring) (by simp only []; ring)⟩
    · obtain ⟨s, t, h, rfl⟩ := h2
      have e1 := congrArg Spec.P3.x hk; have e2 := congrArg Spec.P3.y hk; have e3 := congrArg Spec.P3.z hk
      simp only [sub] at e1 e2 e3
      refine ⟨s - k, t + k, by linarith, p3_ext ?_ ?_ ?_⟩ <;> simp only [] <;> linarith
  obtain ⟨s, t, h, rfl⟩ := h1
  obtain ⟨s', t', h', e⟩ := h2
  have hs : s = 1 - t := by linarith
  have hs' : s' = 1 - t' := by linarith
  subst hs; subst hs'
  have e1 := congrArg Spec.P3.x e; have e2 := congrArg Spec.P3.y e; have e3 := congrArg Spec.P3.z e
  simp only at e1 e2 e3
  have ht : dot (cross (sub p a) (sub q p)) (cross (sub b a) (sub q p)) / dot (cross (sub b a) (sub q p)) (cross (sub b a) (sub q p)) = t := by
    rw [div_eq_iff hn]
    have x1 : p.x - a.x = t * (b.x - a.x) - t' * (q.x - p.x) := by linarith
    have x2 : p.y - a.y = t * (b.y - a.y) - t' * (q.y - p.y) := by linarith
    have x3 : p.z - a.z = t * (b.z - a.z) - t' * (q.z - p.z) := by linarith
    simp only [dot, cross, sub]
    rw [x1, x2, x3]; ring
  unfold formulaLine
  dsimp only
  rw [ht]
  exact p3_ext (by simp only []; ring) (by simp only []; ring) (by simp only []; ring)

theorem formulaPlane_ok : PlaneLine formulaPlane := by
  intro a b c p q x hn hpq ho
  obtain ⟨h1, h2, hu⟩ := ho
  have hm : dot (normal a b c) (normal a b c) ≠ 0 := by
    intro h0
    have : cross (sub b a) (sub c a) = ⟨0, 0, 0⟩ := by
      have h0' : dot (cross (sub b a) (sub c a)) (cross (sub b a) (sub c a)) = 0 := h0
      generalize cross (sub b a) (sub c a) = v at *
      simp only [dot] at h0'
      have q1 := mul_self_nonneg v.x; have q2 := mul_self_nonneg v.y; have q3 := mul_self_nonneg v.z
      exact p3_ext (mul_self_eq_zero.1 (by linarith)) (mul_self_eq_zero.1 (by linarith)) (mul_self_eq_zero.1 (by linarith))
    by_cases hab : a = b
    · subst hab
      exact hn a c ⟨⟨1, 0, by norm_num, p3_ext (by simp) (by simp) (by simp)⟩, ⟨1, 0, by norm_num, p3_ext (by simp) (by simp) (by simp)⟩, ⟨0, 1, by norm_num, p3_ext (by simp) (by simp) (by simp)⟩⟩
    · have hz : dot (cross (sub c a) (sub b a)) (cross (sub c a) (sub b a)) = 0 := by
        have h0' : dot (cross (sub b a) (sub c a)) (cross (sub b a) (sub c a)) = 0 := h0
        rw [← h0']; simp only [dot, cross]; ring
      obtain ⟨k, hk⟩ := parallel (ne_sub hab) hz
      have e1 := congrArg Spec.P3.x hk; have e2 := congrArg Spec.P3.y hk; have e3 := congrArg Spec.P3.z hk
      simp only [sub] at e1 e2 e3
      exact hn a b ⟨⟨1, 0, by norm_num, p3_ext (by simp) (by simp) (by simp)⟩, ⟨0, 1, by norm_num, p3_ext (by simp) (by simp) (by simp)⟩,
        ⟨1 - k, k, by ring, p3_ext (by simp only []; linarith) (by simp only []; linarith) (by simp only []; linarith)⟩⟩
  have hd : dot (normal a b c) (sub q p) ≠ 0 := by
    intro h0
    have hb := hu ⟨x.x + (q.x - p.x), x.y + (q.y - p.y), x.z + (q.z - p.z)⟩ ?_ ?_
    · apply hpq
      have e1 := congrArg Spec.P3.x hb; have e2 := congrArg Spec.P3.y hb; have e3 := congrArg Spec.P3.z hb
      simp only at e1 e2 e3
      exact p3_ext (by linarith) (by linarith) (by linarith)
    · obtain ⟨u, v, w, h, rfl⟩ := h1
      obtain ⟨u', v', w', hs', he⟩ := plane_weights hm (x := ⟨a.x + (sub q p).x, a.y + (sub q p).y, a.z + (sub q p).z⟩) (by
        have : det4 ⟨a.x + (sub q p).x, a.y + (sub q p).y, a.z + (sub q p).z⟩ a b c = - dot (normal a b c) (sub q p) := by simp only [det4, normal, dot, cross, sub]; ring
        rw [this, h0, neg_zero])
      have ex : a.x + (q.x - p.x) = u' * a.x + v' * b.x + w' * c.x := congrArg Spec.P3.x he
      have ey : a.y + (q.y - p.y) = u' * a.y + v' * b.y + w' * c.y := congrArg Spec.P3.y he
      have ez : a.z + (q.z - p.z) = u' * a.z + v' * b.z + w' * c.z := congrArg Spec.P3.z he
      refine ⟨u + (u' - 1), v + v', w + w', by linarith, p3_ext ?_ ?_ ?_⟩ <;> simp only [combo] <;> linarith
    · obtain ⟨s, t, h, rfl⟩ := h2
      exact ⟨s - 1, t + 1, by linarith, p3_ext (by simp only []; ring) (by simp only []; ring) (by simp only []; ring)⟩
  obtain ⟨u, v, w, h, rfl⟩ := h1
  obtain ⟨s', t', h', e⟩ := h2
  have hs : u = 1 - v - w := by linarith
  have hs' : s' = 1 - t' := by linarith
  subst hs; subst hs'
  have e1 := congrArg Spec.P3.x e; have e2 := congrArg Spec.P3.y e; have e3 := congrArg Spec.P3.z e
  simp only [combo] at e1 e2 e3
  have ht : dot (normal a b c) (sub a p) / dot (normal a b c) (sub q p) = t' := by
    rw [div_eq_iff hd]
    have x1 : a.x - p.x = t' * (q.x - p.x) - v * (b.x - a.x) - w * (c.x - a.x) := by linarith
    have x2 : a.y - p.y = t' * (q.y - p.y) - v * (b.y - a.y) - w * (c.y - a.y) := by linarith
    have x3 : a.z - p.z = t' * (q.z - p.z) - v * (b.z - a.z) - w * (c.z - a.z) := by linarith
    simp only [dot, normal, cross, sub]
    rw [x1, x2, x3]; ring
  unfold formulaPlane
  dsimp only
  rw [ht, e]
  exact p3_ext (by simp only []; ring) (by simp only []; ring) (by simp only []; ring)

/-! ### Examples -/

/-- A star of David, the first corner asked for again with the operands exchanged and rotated, and two triangles that pierce each other. -/
def stars : List P3 := [⟨0, 0, 0⟩, ⟨6, 0, 0⟩, ⟨3, 6, 0⟩, ⟨0, 4, 0⟩, ⟨6, 4, 0⟩, ⟨3, -2, 0⟩, ⟨3, 3, -1⟩, ⟨3, 3, 1⟩]
def starCalls : List Call :=
  [⟨51, ⟨0, 1, 2⟩, ⟨3, 4, 5⟩⟩, ⟨51, ⟨0, 1, 2⟩, ⟨3, 4, 5⟩⟩, ⟨27, ⟨4, 5, 3⟩, ⟨0, 1, 2⟩⟩, ⟨43, ⟨0, 1, 2⟩, ⟨3, 4, 5⟩⟩, ⟨31, ⟨0, 1, 2⟩, ⟨6, 7, 4⟩⟩]

/-- The inserter with the formulas: one new point for each corner, shared by equal pairs. -/
example : (run ⟨formulaLine, formulaPlane⟩ (start ⟨stars, [], false⟩) starCalls).bind (fun r => ok (r.1.points.points.drop 8, r.2)) =
    ok ([⟨4, 0, 0⟩, ⟨2, 0, 0⟩, ⟨3, 3, 0⟩], [8, 8, 8, 9, 10]) := by decide +kernel

theorem star_reported (x : Call) (a b c p q r : P3) (l : List Code) (ha : stars[x.left.a]? = some a) (hb : stars[x.left.b]? = some b) (hc : stars[x.left.c]? = some c)
    (hp : stars[x.right.a]? = some p) (hq : stars[x.right.b]? = some q) (hr : stars[x.right.c]? = some r) (h1 : Defects.collinear a b c = false) (h2 : Defects.collinear p q r = false)
    (he : intersect stars x.left.a x.left.b x.left.c x.right.a x.right.b x.right.c = ok l) (hm : x.code ∈ l) : Reported stars x a b c p q r :=
  ⟨⟨ha, hb, hc, hp, hq, hr, by rw [← Props.collinear_iff, h1]; simp, by rw [← Props.collinear_iff, h2]; simp⟩, l, he, hm⟩

/-- The hypotheses hold for these calls. -/
example : ∀ x ∈ starCalls, ∃ a b c p q r, Reported stars x a b c p q r := by
  intro x hx
  simp only [starCalls, List.mem_cons, List.not_mem_nil, or_false] at hx
  rcases hx with rfl | rfl | rfl | rfl | rfl
  · exact ⟨_, _, _, _, _, _, star_reported _ _ _ _ _ _ _ [51, 43, 45, 29, 30, 54] rfl rfl rfl rfl rfl rfl (by decide +kernel) (by decide +kernel) (by decide +kernel) (by decide)⟩
  · exact ⟨_, _, _, _, _, _, star_reported _ _ _ _ _ _ _ [51, 43, 45, 29, 30, 54] rfl rfl rfl rfl rfl rfl (by decide +kernel) (by decide +kernel) (by decide +kernel) (by decide)⟩
  · exact ⟨_, _, _, _, _, _, star_reported _ _ _ _ _ _ _ [27, 51, 53, 45, 46, 30] rfl rfl rfl rfl rfl rfl (by decide +kernel) (by decide +kernel) (by decide +kernel) (by decide)⟩
  · exact ⟨_, _, _, _, _, _, star_reported _ _ _ _ _ _ _ [51, 43, 45, 29, 30, 54] rfl rfl rfl rfl rfl rfl (by decide +kernel) (by decide +kernel) (by decide +kernel) (by decide)⟩
  · exact ⟨_, _, _, _, _, _, star_reported _ _ _ _ _ _ _ [62, 31] rfl rfl rfl rfl rfl rfl (by decide +kernel) (by decide +kernel) (by decide +kernel) (by decide)⟩

/-- So are those on the list of points. -/
example : stars.Nodup := by decide +kernel
example : (∃ f, LineLine f) ∧ ∃ f, PlaneLine f := ⟨⟨_, formulaLine_ok⟩, ⟨_, formulaPlane_ok⟩⟩

end Kigumi.PointInserter

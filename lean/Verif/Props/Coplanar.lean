import Verif.Model.Coplanar
import Verif.Props.PointList
import Verif.Spec.Mesh

/-! # C31: coincident faces are found -/
namespace Kigumi.Coplanar
open Kigumi Outcome Spec PointList

theorem canon_rot (t : Tri Nat) : canon t = t ∨ canon t = t.rot ∨ canon t = t.rot.rot := by
  unfold canon
  dsimp only
  by_cases h1 : (if t.b < t.a then (if t.c < t.b then 2 else 1) else (if t.c < t.a then 2 else 0)) = 0
  · rw [if_pos h1]; exact Or.inl rfl
  · rw [if_neg h1]
    by_cases h2 : (if t.b < t.a then (if t.c < t.b then 2 else 1) else (if t.c < t.a then 2 else 0)) = 1
    · rw [if_pos h2]; exact Or.inr (Or.inl rfl)
    · rw [if_neg h2]; exact Or.inr (Or.inr rfl)

def Three (t : Tri Nat) : Prop := t.a ≠ t.b ∧ t.b ≠ t.c ∧ t.a ≠ t.c

theorem canon_of_rot {t : Tri Nat} (h : Three t) : canon t.rot = canon t := by
  obtain ⟨a, b, c⟩ := t
  obtain ⟨h1, h2, h3⟩ := h
  dsimp only at h1 h2 h3
  simp only [canon, Tri.rot]
  by_cases k1 : b < a <;> by_cases k2 : c < b <;> by_cases k3 : c < a <;> by_cases k4 : a < b <;> by_cases k5 : a < c <;> by_cases k6 : b < c <;> simp [k1, k2, k3, k4, k5, k6] <;> omega

theorem Three.rot {t : Tri Nat} (h : Three t) : Three t.rot := ⟨h.2.1, fun e => h.2.2 e.symm, fun e => h.1 e.symm⟩

theorem canon_iff {t s : Tri Nat} (h : Three t) (hs : Three s) : canon t = canon s ↔ SameFace t s := by
  constructor
  · intro e
    rcases canon_rot t with a | a | a <;> rcases canon_rot s with b | b | b <;> rw [a, b] at e
    · exact Or.inl e.symm
    · exact Or.inr (Or.inr (by rw [e]; rfl))
    · exact Or.inr (Or.inl (by rw [e]; rfl))
    · exact Or.inr (Or.inl e.symm)
    · left; have := congrArg (fun t : Tri Nat => t.rot.rot) e; exact this.symm
    · right; right; have := congrArg (fun t : Tri Nat => t.rot) e; exact this.symm
    · right; right; exact e.symm
    · right; left; have := congrArg (fun t : Tri Nat => t.rot.rot) e; exact this.symm
    · left; have := congrArg (fun t : Tri Nat => t.rot) e; exact this.symm
  · rintro (rfl | rfl | rfl)
    · rfl
    · exact (canon_of_rot h).symm
    · rw [canon_of_rot h.rot, canon_of_rot h]

theorem canon_flip {t : Tri Nat} (h : Three t) : opposite (canon t) = canon t.flip := by
  obtain ⟨a, b, c⟩ := t
  obtain ⟨h1, h2, h3⟩ := h
  dsimp only at h1 h2 h3
  simp only [canon, Tri.flip, opposite]
  by_cases k1 : b < a <;> by_cases k2 : c < b <;> by_cases k3 : c < a <;> by_cases k6 : b < c <;> simp [k1, k2, k3, k6] <;> omega

theorem same_symm {α : Type} {f g : Tri α} (h : SameFace f g) : SameFace g f := by
  rcases h with rfl | rfl | rfl
  · exact Or.inl rfl
  · exact Or.inr (Or.inr rfl)
  · exact Or.inr (Or.inl rfl)

theorem same_trans {α : Type} {f g k : Tri α} (h : SameFace f g) (h' : SameFace g k) : SameFace f k := by
  rcases h with rfl | rfl | rfl <;> rcases h' with rfl | rfl | rfl
  · exact Or.inl rfl
  · exact Or.inr (Or.inl rfl)
  · exact Or.inr (Or.inr rfl)
  · exact Or.inr (Or.inl rfl)
  · exact Or.inr (Or.inr rfl)
  · exact Or.inl rfl
  · exact Or.inr (Or.inr rfl)
  · exact Or.inl rfl
  · exact Or.inr (Or.inl rfl)

theorem same_flip {α : Type} {f g : Tri α} (h : SameFace f g) : SameFace f.flip g.flip := by
  rcases h with rfl | rfl | rfl
  · exact Or.inl rfl
  · exact Or.inr (Or.inr rfl)
  · exact Or.inr (Or.inl rfl)

theorem not_same_flip {α : Type} {t : Tri α} (h : t.a ≠ t.b ∧ t.b ≠ t.c ∧ t.a ≠ t.c) : ¬ SameFace t t.flip := by
  obtain ⟨a, b, c⟩ := t
  obtain ⟨h1, h2, h3⟩ := h
  dsimp only at h1 h2 h3
  rintro (h | h | h) <;> simp [Tri.flip, Tri.rot] at h
  · exact h2 h.2
  · exact h1 h.1
  · exact h3 h.1

/-! ### The map -/

theorem find_emplace (m : TriMap) (t s : Tri Nat) (i : Nat) :
    find (emplace m t i) s = match find m s with | some j => some j | none => if t = s then some i else none := by
  unfold emplace
  have happ : ∀ (m : TriMap), find (m ++ [(t, i)]) s = match find m s with | some j => some j | none => if t = s then some i else none := by
    intro m
    induction m with
    | nil => simp [find]
    | cons x m ih =>
      obtain ⟨k, v⟩ := x
      simp only [List.cons_append, find]
      by_cases hk : k = s
      · simp [hk]
      · simp only [hk, if_false]; exact ih
  cases hf : find m t with
  | none => exact happ m
  | some j =>
    simp only
    cases hs : find m s with
    | some => rfl
    | none =>
      by_cases h : t = s
      · subst h; rw [hf] at hs; cases hs
      · simp [h]

/-- The ids of the corners. -/
def ids (points : List Nat) (f : Tri Nat) : Tri Nat := f.map (fun v => (points[v]?).getD 0)

theorem triangle_ok {points : List Nat} {f : Tri Nat} (h : f.a < points.length ∧ f.b < points.length ∧ f.c < points.length) :
    triangle f points = ok (canon (ids points f)) := by
  obtain ⟨h1, h2, h3⟩ := h
  simp [triangle, at!, ids, Tri.map, h1, h2, h3]

theorem buildMap_ok (points : List Nat) : ∀ (fs : List (Tri Nat)) (k : Nat) (m : TriMap), ValidFaces points fs →
    ∃ m', buildMap points k fs m = ok m' ∧ ∀ t i, find m' t = some i ↔ find m t = some i ∨
      (find m t = none ∧ ∃ j, i = k + j ∧ (∃ f, fs[j]? = some f ∧ canon (ids points f) = t) ∧ ∀ j' f, j' < j → fs[j']? = some f → canon (ids points f) ≠ t) := by
  intro fs
  induction fs with
  | nil => intro k m _; exact ⟨m, rfl, by simp⟩
  | cons f fs ih =>
    intro k m hv
    obtain ⟨m', e, h⟩ := ih (k + 1) (emplace m (canon (ids points f)) k) (fun g hg => hv g (List.mem_cons_of_mem _ hg))
    refine ⟨m', ?_, ?_⟩
    · simp only [buildMap, triangle_ok (hv f (by simp)), ok_bind]; exact e
    · intro t i
      rw [h, find_emplace]
      cases hm : find m t with
      | some j => simp
      | none =>
        simp only [reduceCtorEq, false_or, true_and]
        by_cases ht : canon (ids points f) = t
        · simp only [ht, if_true, Option.some.injEq, reduceCtorEq, false_and, or_false]
          constructor
          · rintro rfl; exact ⟨0, rfl, ⟨f, rfl, ht⟩, fun j' _ hj => by omega⟩
          · rintro ⟨j, rfl, -, h2⟩
            cases j with
            | zero => rfl
            | succ j => exact absurd ht (h2 0 f (by omega) rfl)
        · simp only [ht, if_false, reduceCtorEq, false_or, true_and]
          constructor
          · rintro ⟨j, rfl, ⟨g, h1, h2⟩, h3⟩
            refine ⟨j + 1, by omega, ⟨g, by simpa using h1, h2⟩, ?_⟩
            intro j' f' hj hf
            cases j' with
            | zero => simp at hf; subst hf; exact ht
            | succ j' => exact h3 j' f' (by omega) (by simpa using hf)
          · rintro ⟨j, rfl, ⟨g, h1, h2⟩, h3⟩
            cases j with
            | zero => simp at h1; subst h1; exact absurd h2 ht
            | succ j =>
              exact ⟨j, by omega, ⟨g, by simpa using h1, h2⟩, fun j' f' hj hf => h3 (j' + 1) f' (by omega) (by simpa using hf)⟩

theorem bodies_ok (m : TriMap) (points : List Nat) : ∀ (fs : List (Tri Nat)) (k : Nat), ValidFaces points fs →
    ∃ ws, bodies m points k fs = ok ws ∧ ∀ w, w ∈ ws ↔ ∃ j f l, fs[j]? = some f ∧ body m points (k + j) f = ok l ∧ w ∈ l := by
  intro fs
  induction fs with
  | nil => intro k _; exact ⟨[], rfl, by simp⟩
  | cons f fs ih =>
    intro k hv
    obtain ⟨ws, e, h⟩ := ih (k + 1) (fun g hg => hv g (List.mem_cons_of_mem _ hg))
    have hb : ∃ l, body m points k f = ok l := by
      simp only [body, triangle_ok (hv f (by simp)), ok_bind]
      split
      · exact ⟨_, rfl⟩
      · split <;> exact ⟨_, rfl⟩
    obtain ⟨l, hl⟩ := hb
    refine ⟨l ++ ws, by simp only [bodies, hl, e, ok_bind], ?_⟩
    intro w
    rw [List.mem_append, h]
    constructor
    · rintro (hw | ⟨j, g, l', h1, h2, h3⟩)
      · exact ⟨0, f, l, rfl, hl, hw⟩
      · exact ⟨j + 1, g, l', by simpa using h1, by rw [← h2]; congr 1; omega, h3⟩
    · rintro ⟨j, g, l', h1, h2, h3⟩
      cases j with
      | zero => simp at h1; subst h1; rw [Nat.add_zero, hl] at h2; cases h2; exact Or.inl h3
      | succ j => exact Or.inr ⟨j, g, l', by simpa using h1, by rw [← h2]; congr 1; omega, h3⟩

theorem finalTag_none (toA : Bool) (face : Nat) : ∀ (ws : List Write) (t : Tag), (∀ w ∈ ws, ¬ (w.toA = toA ∧ w.face = face)) → finalTag toA face ws t = t := by
  intro ws
  induction ws with
  | nil => intro t _; rfl
  | cons w ws ih =>
    intro t h
    simp only [finalTag, if_neg (h w (by simp))]
    exact ih t (fun w hw => h w (List.mem_cons_of_mem _ hw))

theorem finalTag_some (toA : Bool) (face : Nat) (T : Tag) : ∀ (ws : List Write) (t : Tag), (∀ w ∈ ws, w.toA = toA → w.face = face → w.tag = T) →
    (t = T ∨ ∃ w ∈ ws, w.toA = toA ∧ w.face = face) → finalTag toA face ws t = T := by
  intro ws
  induction ws with
  | nil => rintro t _ (h | ⟨w, hw, -⟩); exact h; cases hw
  | cons w ws ih =>
    intro t h h'
    simp only [finalTag]
    refine ih _ (fun w hw => h w (List.mem_cons_of_mem _ hw)) ?_
    by_cases hw : w.toA = toA ∧ w.face = face
    · left; rw [if_pos hw]; exact h w (by simp) hw.1 hw.2
    · rw [if_neg hw]
      rcases h' with h' | ⟨v, hv, hv'⟩
      · exact Or.inl h'
      · rcases List.mem_cons.1 hv with rfl | hv
        · exact absurd hv' hw
        · exact Or.inr ⟨v, hv, hv'⟩

/-! ### On ids -/

/-- Different faces have different corner sets. -/
def Dist (ts : List (Tri Nat)) : Prop := ∀ (i j : Nat) (t u : Tri Nat), ts[i]? = some t → ts[j]? = some u → (SameFace t u ∨ SameFace t u.flip) → i = j

/-- What the tag of a face says about the faces of the other operand. -/
def TagSays {α : Type} (t : Tri α) (other : Nat → Tri α → Prop) (tag : Tag) : Prop :=
  (tag = .coplanar ↔ ∃ j u, other j u ∧ SameFace t u) ∧ (tag = .opposite ↔ ∃ j u, other j u ∧ SameFace t u.flip) ∧ (tag = .coplanar ∨ tag = .opposite ∨ tag = .unknown)

/-- The face numbers, in the list of the other operand. -/
def At (ts : List (Tri Nat)) (i : Nat) (t : Tri Nat) : Prop := ts[i]? = some t

theorem three_flip {t : Tri Nat} (h : Three t) : Three t.flip := ⟨h.2.2, fun e => h.2.1 e.symm, h.1⟩

theorem core {aPts bPts : List Nat} {a b : List (Tri Nat)} {m : TriMap} {ws : List Write}
    (va : ValidFaces aPts a) (vb : ValidFaces bPts b) (ta : ∀ f ∈ a, Three (ids aPts f)) (tb : ∀ f ∈ b, Three (ids bPts f))
    (da : Dist (a.map (ids aPts))) (db : Dist (b.map (ids bPts)))
    (hm : buildMap aPts 0 a [] = ok m) (hw : bodies m bPts 0 b = ok ws) :
    (∀ w, w ∈ ws ↔ ∃ (i j : Nat) (t u : Tri Nat), (a.map (ids aPts))[i]? = some t ∧ (b.map (ids bPts))[j]? = some u ∧
      ((SameFace t u ∧ w.tag = .coplanar) ∨ (SameFace t u.flip ∧ w.tag = .opposite)) ∧ ((w.toA = true ∧ w.face = i) ∨ (w.toA = false ∧ w.face = j))) ∧
    (∀ (j : Nat) u l, b[j]? = some u → body m bPts j u = ok l → ∀ w ∈ l, ∀ (j' : Nat) u' l', b[j']? = some u' → body m bPts j' u' = ok l' → ∀ w' ∈ l', w.toA = w'.toA → w.face = w'.face → j = j') := by
  obtain ⟨m', e, hfind⟩ := buildMap_ok aPts a 0 [] va
  rw [hm] at e; cases e
  obtain ⟨ws', e, hws⟩ := bodies_ok m bPts b 0 vb
  rw [hw] at e; cases e
  have hfind : ∀ s i, Three s → (find m (canon s) = some i ↔ ∃ t, (a.map (ids aPts))[i]? = some t ∧ SameFace t s) := by
    intro s i hs
    rw [hfind]
    simp only [find, reduceCtorEq, false_or, true_and, List.getElem?_map, Option.map_eq_some_iff, Nat.zero_add]
    constructor
    · rintro ⟨j, rfl, ⟨f, h1, h2⟩, -⟩
      exact ⟨_, ⟨f, h1, rfl⟩, (canon_iff (ta f (List.mem_of_getElem? h1)) hs).1 h2⟩
    · rintro ⟨t, ⟨f, h1, rfl⟩, h2⟩
      have e1 := (canon_iff (ta f (List.mem_of_getElem? h1)) hs).2 h2
      refine ⟨i, rfl, ⟨f, h1, e1⟩, ?_⟩
      intro j' f' hj hf' he
      have := (canon_iff (ta f' (List.mem_of_getElem? hf')) (ta f (List.mem_of_getElem? h1))).1 (he.trans e1.symm)
      have := da j' i _ _ (by simp [hf']) (by simp [h1]) (Or.inl this)
      omega
  -- the writes of one body
  have hbody : ∀ j u, b[j]? = some u → ∃ l, body m bPts j u = ok l ∧ ∀ w, w ∈ l ↔ ∃ i t, (a.map (ids aPts))[i]? = some t ∧
      ((SameFace t (ids bPts u) ∧ w.tag = .coplanar) ∨ (SameFace t (ids bPts u).flip ∧ w.tag = .opposite)) ∧ ((w.toA = true ∧ w.face = i) ∨ (w.toA = false ∧ w.face = j)) := by
    intro j u hu
    have hmem := List.mem_of_getElem? hu
    have h3 := tb u hmem
    simp only [body, triangle_ok (vb u hmem), ok_bind, canon_flip h3]
    cases h1 : find m (canon (ids bPts u)) with
    | some i =>
      refine ⟨_, rfl, ?_⟩
      obtain ⟨t, ht, hs⟩ := (hfind _ _ h3).1 h1
      intro w
      have key : ∀ (i' : Nat) t', (a.map (ids aPts))[i']? = some t' → SameFace t' (ids bPts u) ∨ SameFace t' (ids bPts u).flip → i' = i := by
        intro i' t' h h'
        refine da i' i t' t h ht ?_
        rcases h' with h' | h'
        · exact Or.inl (same_trans h' (same_symm hs))
        · exact Or.inr (same_trans h' (same_flip (same_symm hs)))
      constructor
      · intro h
        simp only [List.mem_cons, List.not_mem_nil, or_false] at h
        rcases h with rfl | rfl
        · exact ⟨i, t, ht, Or.inl ⟨hs, rfl⟩, Or.inl ⟨rfl, rfl⟩⟩
        · exact ⟨i, t, ht, Or.inl ⟨hs, rfl⟩, Or.inr ⟨rfl, rfl⟩⟩
      · rintro ⟨i', t', h, hst, hloc⟩
        obtain rfl := key i' t' h (by rcases hst with h | h; exact Or.inl h.1; exact Or.inr h.1)
        rw [ht] at h; cases h
        have hc : w.tag = .coplanar := by
          rcases hst with h | h
          · exact h.2
          · exact absurd (same_trans (same_symm hs) h.1) (not_same_flip h3)
        obtain ⟨x, y, z⟩ := w
        dsimp only at hc hloc
        subst hc
        rcases hloc with ⟨rfl, rfl⟩ | ⟨rfl, rfl⟩ <;> simp
    | none =>
      have hno : ∀ (i' : Nat) t', (a.map (ids aPts))[i']? = some t' → ¬ SameFace t' (ids bPts u) := by
        intro i' t' h h'
        have := (hfind _ i' h3).2 ⟨t', h, h'⟩
        rw [h1] at this; cases this
      simp only
      cases h2 : find m (canon (ids bPts u).flip) with
      | some i =>
        refine ⟨_, rfl, ?_⟩
        obtain ⟨t, ht, hs⟩ := (hfind _ _ (three_flip h3)).1 h2
        intro w
        constructor
        · intro h
          simp only [List.mem_cons, List.not_mem_nil, or_false] at h
          rcases h with rfl | rfl
          · exact ⟨i, t, ht, Or.inr ⟨hs, rfl⟩, Or.inl ⟨rfl, rfl⟩⟩
          · exact ⟨i, t, ht, Or.inr ⟨hs, rfl⟩, Or.inr ⟨rfl, rfl⟩⟩
        · rintro ⟨i', t', h, hst, hloc⟩
          rcases hst with h' | ⟨h', hc⟩
          · exact absurd h'.1 (hno i' t' h)
          · obtain rfl := da i' i t' t h ht (Or.inl (same_trans h' (same_symm hs)))
            obtain ⟨x, y, z⟩ := w
            dsimp only at hc hloc
            subst hc
            rcases hloc with ⟨rfl, rfl⟩ | ⟨rfl, rfl⟩ <;> simp
      | none =>
        refine ⟨_, rfl, ?_⟩
        intro w
        constructor
        · intro h; cases h
        · rintro ⟨i', t', h, hst, -⟩
          rcases hst with h' | h'
          · exact absurd h'.1 (hno i' t' h)
          · have := (hfind _ i' (three_flip h3)).2 ⟨t', h, h'.1⟩
            rw [h2] at this; cases this
  refine ⟨?_, ?_⟩
  · intro w
    rw [hws]
    constructor
    · rintro ⟨j, f, l, h1, h2, h3⟩
      rw [Nat.zero_add] at h2
      obtain ⟨l', e, hl⟩ := hbody j f h1
      rw [h2] at e; cases e
      obtain ⟨i, t, x, y, z⟩ := (hl w).1 h3
      exact ⟨i, j, t, ids bPts f, x, by simp [h1], y, z⟩
    · rintro ⟨i, j, t, u, x, hu, y, z⟩
      rw [List.getElem?_map, Option.map_eq_some_iff] at hu
      obtain ⟨f, h1, rfl⟩ := hu
      obtain ⟨l', e, hl⟩ := hbody j f h1
      exact ⟨j, f, l', h1, by rw [Nat.zero_add]; exact e, (hl w).2 ⟨i, t, x, y, z⟩⟩
  · intro j u l hu hl w hw' j' u' l' hu' hl' w' hw'' ha hf
    obtain ⟨l1, e, hb⟩ := hbody j u hu
    rw [hl] at e; cases e
    obtain ⟨l2, e, hb'⟩ := hbody j' u' hu'
    rw [hl'] at e; cases e
    obtain ⟨i, t, h1, h2, h3⟩ := (hb w).1 hw'
    obtain ⟨i', t', h1', h2', h3'⟩ := (hb' w').1 hw''
    rcases h3 with ⟨h3, h4⟩ | ⟨h3, h4⟩ <;> rcases h3' with ⟨h3', h4'⟩ | ⟨h3', h4'⟩
    · have : i = i' := by rw [← h4, ← h4', hf]
      subst this
      rw [h1] at h1'; cases h1'
      refine db j j' (ids bPts u) (ids bPts u') (by simp [hu]) (by simp [hu']) ?_
      rcases h2 with ⟨h2, -⟩ | ⟨h2, -⟩ <;> rcases h2' with ⟨h2', -⟩ | ⟨h2', -⟩
      · exact Or.inl (same_trans (same_symm h2) h2')
      · exact Or.inr (same_trans (same_symm h2) h2')
      · exact Or.inr (same_trans (same_symm (same_flip h2)) (same_flip h2'))
      · exact Or.inl (same_trans (same_symm (same_flip h2)) (same_flip h2'))
    · rw [h3, h3'] at ha; cases ha
    · rw [h3, h3'] at ha; cases ha
    · rw [← h4, ← h4', hf]

theorem tags_of_core {as bs : List (Tri Nat)} {order : List Write} (ta : ∀ t ∈ as, Three t) (tb : ∀ t ∈ bs, Three t) (da : Dist as) (db : Dist bs)
    (h : ∀ w, w ∈ order ↔ ∃ (i j : Nat) (t u : Tri Nat), as[i]? = some t ∧ bs[j]? = some u ∧
      ((SameFace t u ∧ w.tag = .coplanar) ∨ (SameFace t u.flip ∧ w.tag = .opposite)) ∧ ((w.toA = true ∧ w.face = i) ∨ (w.toA = false ∧ w.face = j))) :
    (∀ (i : Nat) t, as[i]? = some t → TagSays t (At bs) (finalTag true i order .unknown)) ∧
    (∀ (j : Nat) u, bs[j]? = some u → TagSays u (At as) (finalTag false j order .unknown)) := by
  have flip2 : ∀ t u : Tri Nat, SameFace t u.flip → SameFace u t.flip := fun t u h => same_symm (same_flip h)
  constructor
  · intro i t ht
    by_cases h1 : ∃ (j : Nat) (u : Tri Nat), bs[j]? = some u ∧ SameFace t u
    · have h2 : ¬ ∃ (j : Nat) (u : Tri Nat), bs[j]? = some u ∧ SameFace t u.flip := by
        rintro ⟨j', u', hu', hs'⟩
        obtain ⟨j, u, hu, hs⟩ := h1
        have := db j j' u u' hu hu' (Or.inr (same_trans (same_symm hs) hs'))
        subst this
        rw [hu] at hu'; cases hu'
        exact not_same_flip (tb _ (List.mem_of_getElem? hu)) (same_trans (same_symm hs) hs')
      have e : finalTag true i order .unknown = .coplanar := by
        apply finalTag_some
        · intro w hw ha hf
          obtain ⟨i', j, t', u, x, y, z, l⟩ := (h w).1 hw
          rcases l with ⟨-, l⟩ | ⟨l, -⟩
          · have : i' = i := by rw [← l, hf]
            subst this
            rw [ht] at x; cases x
            rcases z with z | z
            · exact z.2
            · exact absurd ⟨j, u, y, z.1⟩ h2
          · rw [ha] at l; cases l
        · obtain ⟨j, u, hu, hs⟩ := h1
          exact Or.inr ⟨⟨true, i, .coplanar⟩, (h _).2 ⟨i, j, t, u, ht, hu, Or.inl ⟨hs, rfl⟩, Or.inl ⟨rfl, rfl⟩⟩, rfl, rfl⟩
      rw [e]
      exact ⟨⟨fun _ => h1, fun _ => rfl⟩, ⟨fun h => (by cases h), fun h => absurd h h2⟩, Or.inl rfl⟩
    · by_cases h2 : ∃ (j : Nat) (u : Tri Nat), bs[j]? = some u ∧ SameFace t u.flip
      · have e : finalTag true i order .unknown = .opposite := by
          apply finalTag_some
          · intro w hw ha hf
            obtain ⟨i', j, t', u, x, y, z, l⟩ := (h w).1 hw
            rcases l with ⟨-, l⟩ | ⟨l, -⟩
            · have : i' = i := by rw [← l, hf]
              subst this
              rw [ht] at x; cases x
              rcases z with z | z
              · exact absurd ⟨j, u, y, z.1⟩ h1
              · exact z.2
            · rw [ha] at l; cases l
          · obtain ⟨j, u, hu, hs⟩ := h2
            exact Or.inr ⟨⟨true, i, .opposite⟩, (h _).2 ⟨i, j, t, u, ht, hu, Or.inr ⟨hs, rfl⟩, Or.inl ⟨rfl, rfl⟩⟩, rfl, rfl⟩
        rw [e]
        exact ⟨⟨fun h => (by cases h), fun h => absurd h h1⟩, ⟨fun _ => h2, fun _ => rfl⟩, Or.inr (Or.inl rfl)⟩
      · have e : finalTag true i order .unknown = .unknown := by
          apply finalTag_none
          rintro w hw ⟨ha, hf⟩
          obtain ⟨i', j, t', u, x, y, z, l⟩ := (h w).1 hw
          rcases l with ⟨-, l⟩ | ⟨l, -⟩
          · have : i' = i := by rw [← l, hf]
            subst this
            rw [ht] at x; cases x
            rcases z with z | z
            · exact h1 ⟨j, u, y, z.1⟩
            · exact h2 ⟨j, u, y, z.1⟩
          · rw [ha] at l; cases l
        rw [e]
        exact ⟨⟨fun h => (by cases h), fun h => absurd h h1⟩, ⟨fun h => (by cases h), fun h => absurd h h2⟩, Or.inr (Or.inr rfl)⟩
  · intro j u hu
    by_cases h1 : ∃ (i : Nat) (t : Tri Nat), as[i]? = some t ∧ SameFace u t
    · have h2 : ¬ ∃ (i : Nat) (t : Tri Nat), as[i]? = some t ∧ SameFace u t.flip := by
        rintro ⟨j', u', hu', hs'⟩
        obtain ⟨j1, u1, hu1, hs⟩ := h1
        have := da j1 j' u1 u' hu1 hu' (Or.inr (same_trans (same_symm hs) hs'))
        subst this
        rw [hu1] at hu'; cases hu'
        exact not_same_flip (ta _ (List.mem_of_getElem? hu1)) (same_trans (same_symm hs) hs')
      have e : finalTag false j order .unknown = .coplanar := by
        apply finalTag_some
        · intro w hw ha hf
          obtain ⟨i, j', t, u', x, y, z, l⟩ := (h w).1 hw
          rcases l with ⟨l, -⟩ | ⟨-, l⟩
          · rw [ha] at l; cases l
          · have : j' = j := by rw [← l, hf]
            subst this
            rw [hu] at y; cases y
            rcases z with z | z
            · exact z.2
            · exact absurd ⟨i, t, x, flip2 _ _ z.1⟩ h2
        · obtain ⟨i, t, ht, hs⟩ := h1
          exact Or.inr ⟨⟨false, j, .coplanar⟩, (h _).2 ⟨i, j, t, u, ht, hu, Or.inl ⟨same_symm hs, rfl⟩, Or.inr ⟨rfl, rfl⟩⟩, rfl, rfl⟩
      rw [e]
      exact ⟨⟨fun _ => h1, fun _ => rfl⟩, ⟨fun h => (by cases h), fun h => absurd h h2⟩, Or.inl rfl⟩
    · by_cases h2 : ∃ (i : Nat) (t : Tri Nat), as[i]? = some t ∧ SameFace u t.flip
      · have e : finalTag false j order .unknown = .opposite := by
          apply finalTag_some
          · intro w hw ha hf
            obtain ⟨i, j', t, u', x, y, z, l⟩ := (h w).1 hw
            rcases l with ⟨l, -⟩ | ⟨-, l⟩
            · rw [ha] at l; cases l
            · have : j' = j := by rw [← l, hf]
              subst this
              rw [hu] at y; cases y
              rcases z with z | z
              · exact absurd ⟨i, t, x, same_symm z.1⟩ h1
              · exact z.2
          · obtain ⟨i, t, ht, hs⟩ := h2
            exact Or.inr ⟨⟨false, j, .opposite⟩, (h _).2 ⟨i, j, t, u, ht, hu, Or.inr ⟨flip2 _ _ hs, rfl⟩, Or.inr ⟨rfl, rfl⟩⟩, rfl, rfl⟩
        rw [e]
        exact ⟨⟨fun h => (by cases h), fun h => absurd h h1⟩, ⟨fun _ => h2, fun _ => rfl⟩, Or.inr (Or.inl rfl)⟩
      · have e : finalTag false j order .unknown = .unknown := by
          apply finalTag_none
          rintro w hw ⟨ha, hf⟩
          obtain ⟨i, j', t, u', x, y, z, l⟩ := (h w).1 hw
          rcases l with ⟨l, -⟩ | ⟨-, l⟩
          · rw [ha] at l; cases l
          · have : j' = j := by rw [← l, hf]
            subst this
            rw [hu] at y; cases y
            rcases z with z | z
            · exact h1 ⟨i, t, x, same_symm z.1⟩
            · exact h2 ⟨i, t, x, flip2 _ _ z.1⟩
        rw [e]
        exact ⟨⟨fun h => (by cases h), fun h => absurd h h1⟩, ⟨fun h => (by cases h), fun h => absurd h h2⟩, Or.inr (Or.inr rfl)⟩

end Kigumi.Coplanar

namespace Kigumi.Coplanar
open Kigumi Outcome Spec PointList
variable {P : Type} [DecidableEq P]

/-- Ids denoting corners. -/
def Den (pts : List P) (x : Tri Nat) (t : Tri P) : Prop := pts[x.a]? = some t.a ∧ pts[x.b]? = some t.b ∧ pts[x.c]? = some t.c

theorem den_inj {pts : List P} (hn : pts.Nodup) {i j : Nat} {p q : P} (h : pts[i]? = some p) (h' : pts[j]? = some q) : i = j ↔ p = q := by
  constructor
  · rintro rfl; rw [h] at h'; cases h'; rfl
  · rintro rfl
    have l1 : i < pts.length := by by_contra hc; rw [List.getElem?_eq_none (by omega)] at h; cases h
    have l2 : j < pts.length := by by_contra hc; rw [List.getElem?_eq_none (by omega)] at h'; cases h'
    rw [List.getElem?_eq_getElem l1] at h
    rw [List.getElem?_eq_getElem l2] at h'
    exact (List.Nodup.getElem_inj_iff hn).1 ((Option.some.inj h).trans (Option.some.inj h').symm)

theorem Den.eq {pts : List P} (hn : pts.Nodup) {x y : Tri Nat} {t u : Tri P} (h : Den pts x t) (h' : Den pts y u) : x = y ↔ t = u := by
  obtain ⟨a, b, c⟩ := x
  obtain ⟨a', b', c'⟩ := y
  obtain ⟨p, q, r⟩ := t
  obtain ⟨p', q', r'⟩ := u
  simp only [Tri.mk.injEq]
  rw [den_inj hn h.1 h'.1, den_inj hn h.2.1 h'.2.1, den_inj hn h.2.2 h'.2.2]

theorem Den.rot {pts : List P} {x : Tri Nat} {t : Tri P} (h : Den pts x t) : Den pts x.rot t.rot := ⟨h.2.1, h.2.2, h.1⟩
theorem Den.flip {pts : List P} {x : Tri Nat} {t : Tri P} (h : Den pts x t) : Den pts x.flip t.flip := ⟨h.1, h.2.2, h.2.1⟩

theorem Den.same {pts : List P} (hn : pts.Nodup) {x y : Tri Nat} {t u : Tri P} (h : Den pts x t) (h' : Den pts y u) : SameFace x y ↔ SameFace t u := by
  unfold SameFace
  rw [h'.eq hn h, h'.eq hn h.rot, h'.eq hn h.rot.rot]

theorem den_ids {pts opts : List P} {idl : List Nat} {fs : List (Tri Nat)} (hl : ∀ (i : Nat) p, opts[i]? = some p → ∃ id, idl[i]? = some id ∧ pts[id]? = some p)
    {i : Nat} {t : Tri P} (h : FaceCorners opts fs i t) : ∃ x, (fs.map (ids idl))[i]? = some x ∧ Den pts x t := by
  obtain ⟨f, hf, ha, hb, hc⟩ := h
  obtain ⟨a, ha, pa⟩ := hl _ _ ha
  obtain ⟨b, hb, pb⟩ := hl _ _ hb
  obtain ⟨c, hc, pc⟩ := hl _ _ hc
  exact ⟨ids idl f, by simp [hf], by simpa [Den, ids, Tri.map, ha, hb, hc] using ⟨pa, pb, pc⟩⟩

theorem corners_of_valid {opts : List P} {fs : List (Tri Nat)} (hv : ValidFaces opts fs) {i : Nat} {f : Tri Nat} (hf : fs[i]? = some f) :
    ∃ t, FaceCorners opts fs i t := by
  obtain ⟨h1, h2, h3⟩ := hv f (List.mem_of_getElem? hf)
  exact ⟨⟨opts[f.a], opts[f.b], opts[f.c]⟩, f, hf, by simp [h1], by simp [h2], by simp [h3]⟩

/-- What is known about one operand's ids. -/
structure Operand (pts opts : List P) (idl : List Nat) (fs : List (Tri Nat)) : Prop where
  valid : ValidFaces idl fs
  three : ∀ f ∈ fs, Three (ids idl f)
  dist : Dist (fs.map (ids idl))
  den : ∀ i x, (fs.map (ids idl))[i]? = some x → ∃ t, FaceCorners opts fs i t ∧ Den pts x t

theorem operand {pts opts : List P} (hn : pts.Nodup) {idl : List Nat} {fs : List (Tri Nat)} (hlen : idl.length = opts.length)
    (hl : ∀ (i : Nat) p, opts[i]? = some p → ∃ id, idl[i]? = some id ∧ pts[id]? = some p)
    (hv : ValidFaces opts fs) (h3 : ThreeCorners opts fs) (hr : NoRepeatedFaces opts fs) : Operand pts opts idl fs := by
  have hden : ∀ i x, (fs.map (ids idl))[i]? = some x → ∃ t, FaceCorners opts fs i t ∧ Den pts x t := by
    intro i x hx
    rw [List.getElem?_map, Option.map_eq_some_iff] at hx
    obtain ⟨f, hf, rfl⟩ := hx
    obtain ⟨t, ht⟩ := corners_of_valid hv hf
    obtain ⟨x, hx, hd⟩ := den_ids hl ht
    rw [List.getElem?_map, hf] at hx
    cases hx
    exact ⟨t, ht, hd⟩
  refine ⟨fun f hf => by rw [hlen]; exact hv f hf, ?_, ?_, hden⟩
  · intro f hf
    obtain ⟨i, hi, he⟩ := List.getElem_of_mem hf
    obtain ⟨t, ht, hd⟩ := hden i (ids idl f) (by simp [hi, he])
    obtain ⟨n1, n2, n3⟩ := h3 i t ht
    exact ⟨fun e => n1 ((den_inj hn hd.1 hd.2.1).1 e), fun e => n2 ((den_inj hn hd.2.1 hd.2.2).1 e), fun e => n3 ((den_inj hn hd.1 hd.2.2).1 e)⟩
  · intro i j x y hx hy hs
    obtain ⟨t, ht, hd⟩ := hden i x hx
    obtain ⟨u, hu, hd'⟩ := hden j y hy
    refine hr i j t u ht hu ?_
    rw [← hd.same hn hd', ← hd.same hn hd'.flip]; exact hs

theorem says_coords {pts : List P} (hn : pts.Nodup) {x : Tri Nat} {t : Tri P} (hx : Den pts x t) {idl : List Nat} {opts : List P} {fs : List (Tri Nat)} (ho : Operand pts opts idl fs)
    (hl : ∀ (i : Nat) p, opts[i]? = some p → ∃ id, idl[i]? = some id ∧ pts[id]? = some p)
    {tag : Tag} (h : TagSays x (At (fs.map (ids idl))) tag) : TagSays t (FaceCorners opts fs) tag := by
  have key : ∀ (R : Tri Nat → Tri Nat → Prop) (R' : Tri P → Tri P → Prop), (∀ y u, Den pts y u → (R x y ↔ R' t u)) →
      ((∃ j u, At (fs.map (ids idl)) j u ∧ R x u) ↔ ∃ j u, FaceCorners opts fs j u ∧ R' t u) := by
    intro R R' hR
    constructor
    · rintro ⟨j, y, hy, hr⟩
      obtain ⟨u, hu, hd⟩ := ho.den j y hy
      exact ⟨j, u, hu, (hR y u hd).1 hr⟩
    · rintro ⟨j, u, hu, hr⟩
      obtain ⟨y, hy, hd⟩ := den_ids hl hu
      exact ⟨j, y, hy, (hR y u hd).2 hr⟩
  obtain ⟨h1, h2, h3⟩ := h
  exact ⟨h1.trans (key SameFace SameFace (fun y u hd => hx.same hn hd)), h2.trans (key (fun x y => SameFace x y.flip) (fun t u => SameFace t u.flip) (fun y u hd => hx.same hn hd.flip)), h3⟩

end Kigumi.Coplanar

namespace Kigumi.Props
open Kigumi Outcome Spec PointList Coplanar
variable {P : Type} [DecidableEq P]

/-- **Coincident faces are found.** For operands with valid indices whose faces have three different corners each and are not repeated within an operand: whichever operand is larger and however the writes of the parallel loop
are ordered, a face is tagged COPLANAR iff the other operand has a face with the same corner coordinates in the same cyclic order, OPPOSITE iff it has one with the same corners in the reverse order, and UNKNOWN otherwise; and there is a result. -/
theorem C31_found (lp rp : List P) (left right : List (Tri Nat)) (vl : ValidFaces lp left) (vr : ValidFaces rp right)
    (tl : ThreeCorners lp left) (tr : ThreeCorners rp right) (nl : NoRepeatedFaces lp left) (nr : NoRepeatedFaces rp right) :
    let r := corefinePoints lp rp
    (∃ lt rt, Coplanar.Returns left right r.2.1 r.2.2 lt rt) ∧
    ∀ lt rt, Coplanar.Returns left right r.2.1 r.2.2 lt rt → lt.length = left.length ∧ rt.length = right.length ∧
      (∀ (i : Nat) t, FaceCorners lp left i t → ∃ tag, lt[i]? = some tag ∧ TagSays t (FaceCorners rp right) tag) ∧
      (∀ (i : Nat) t, FaceCorners rp right i t → ∃ tag, rt[i]? = some tag ∧ TagSays t (FaceCorners lp left) tag) := by
  intro r
  obtain ⟨len1, len2, hn, hl, hr⟩ := C38_operands lp rp
  have ol := operand hn len1 hl vl tl nl
  have or := operand hn len2 hr vr tr nr
  constructor
  · unfold Coplanar.Returns
    by_cases h : left.length < right.length
    · simp only [h, decide_true, if_true]
      obtain ⟨m, hm, -⟩ := buildMap_ok r.2.1 left 0 [] ol.valid
      obtain ⟨ws, hw, -⟩ := bodies_ok m r.2.2 right 0 or.valid
      exact ⟨_, _, m, ws, ws, hm, hw, .refl _, rfl, rfl⟩
    · simp only [h, decide_false]
      obtain ⟨m, hm, -⟩ := buildMap_ok r.2.2 right 0 [] or.valid
      obtain ⟨ws, hw, -⟩ := bodies_ok m r.2.1 left 0 ol.valid
      exact ⟨_, _, m, ws, ws, hm, hw, .refl _, rfl, rfl⟩
  · intro lt rt h
    have main : (∀ (i : Nat) x, (left.map (ids r.2.1))[i]? = some x → ∃ tag, lt[i]? = some tag ∧ TagSays x (At (right.map (ids r.2.2))) tag) ∧
        (∀ (i : Nat) x, (right.map (ids r.2.2))[i]? = some x → ∃ tag, rt[i]? = some tag ∧ TagSays x (At (left.map (ids r.2.1))) tag) ∧ lt.length = left.length ∧ rt.length = right.length := by
      have three : ∀ {idl : List Nat} {fs : List (Tri Nat)}, (∀ f ∈ fs, Three (ids idl f)) → ∀ t ∈ fs.map (ids idl), Three t := by
        intro idl fs h t ht
        obtain ⟨f, hf, rfl⟩ := List.mem_map.1 ht
        exact h f hf
      have lt_of : ∀ {idl : List Nat} {fs : List (Tri Nat)} {i : Nat} {x : Tri Nat}, (fs.map (ids idl))[i]? = some x → i < fs.length := by
        intro idl fs i x h
        by_contra hc
        rw [List.getElem?_eq_none (by simp; omega)] at h; cases h
      unfold Coplanar.Returns at h
      by_cases hlt : left.length < right.length
      · simp only [hlt, decide_true, if_true] at h
        obtain ⟨m, ws, order, hm, hw, hp, rfl, rfl⟩ := h
        obtain ⟨c, -⟩ := core ol.valid or.valid ol.three or.three ol.dist or.dist hm hw
        obtain ⟨a, b⟩ := tags_of_core (three ol.three) (three or.three) ol.dist or.dist (fun w => (hp.mem_iff).trans (c w))
        exact ⟨fun i x hx => ⟨_, by simp [lt_of hx], a i x hx⟩, fun i x hx => ⟨_, by simp [lt_of hx], b i x hx⟩, by simp, by simp⟩
      · simp only [hlt, decide_false] at h
        obtain ⟨m, ws, order, hm, hw, hp, rfl, rfl⟩ := h
        obtain ⟨c, -⟩ := core or.valid ol.valid or.three ol.three or.dist ol.dist hm hw
        obtain ⟨a, b⟩ := tags_of_core (three or.three) (three ol.three) or.dist ol.dist (fun w => (hp.mem_iff).trans (c w))
        exact ⟨fun i x hx => ⟨_, by simp [lt_of hx], b i x hx⟩, fun i x hx => ⟨_, by simp [lt_of hx], a i x hx⟩, by simp, by simp⟩
    obtain ⟨m1, m2, m3, m4⟩ := main
    refine ⟨m3, m4, ?_, ?_⟩
    · intro i t ht
      obtain ⟨x, hx, hd⟩ := den_ids hl ht
      obtain ⟨tag, h1, h2⟩ := m1 i x hx
      exact ⟨tag, h1, says_coords hn hd or hr h2⟩
    · intro i t ht
      obtain ⟨x, hx, hd⟩ := den_ids hr ht
      obtain ⟨tag, h1, h2⟩ := m2 i x hx
      exact ⟨tag, h1, says_coords hn hd ol hl h2⟩

/-- **No two bodies write the same tag.** Under the same hypotheses, the bodies of different iterations write to different elements: the loop has no data race. -/
theorem C31_no_races (lp rp : List P) (a b : List (Tri Nat)) (va : ValidFaces lp a) (vb : ValidFaces rp b)
    (ta : ThreeCorners lp a) (tb : ThreeCorners rp b) (na : NoRepeatedFaces lp a) (nb : NoRepeatedFaces rp b) {m : TriMap}
    (hm : buildMap (corefinePoints lp rp).2.1 0 a [] = ok m) {j j' : Nat} {u u' : Tri Nat} (hu : b[j]? = some u) (hu' : b[j']? = some u') {l l' : List Write}
    (hl : body m (corefinePoints lp rp).2.2 j u = ok l) (hl' : body m (corefinePoints lp rp).2.2 j' u' = ok l') {w w' : Write} (hw : w ∈ l) (hw' : w' ∈ l')
    (h1 : w.toA = w'.toA) (h2 : w.face = w'.face) : j = j' := by
  obtain ⟨len1, len2, hn, hpl, hpr⟩ := C38_operands lp rp
  have ol := operand hn len1 hpl va ta na
  have or := operand hn len2 hpr vb tb nb
  obtain ⟨ws, hws, -⟩ := bodies_ok m (corefinePoints lp rp).2.2 b 0 or.valid
  obtain ⟨-, c⟩ := core ol.valid or.valid ol.three or.three ol.dist or.dist hm hws
  exact c j u l hu hl w hw j' u' l' hu' hl' w' hw' h1 h2

/-- The hypothesis on repeated faces is needed: if an operand has a face and its reverse, the tag of the coincident face of the other operand depends on the order of the writes. -/
theorem C31_repeated_faces_race : ∃ (left right : List (Tri Nat)) (ids : List Nat) (t1 t2 : Tag), t1 ≠ t2 ∧
    (∃ rt, Coplanar.Returns left right ids ids [t1] rt) ∧ (∃ rt, Coplanar.Returns left right ids ids [t2] rt) := by
  refine ⟨[⟨0, 1, 2⟩], [⟨0, 1, 2⟩, ⟨0, 2, 1⟩], [0, 1, 2], .opposite, .coplanar, by decide, ?_, ?_⟩
  · exact ⟨_, _, _, _, rfl, rfl, .refl _, rfl, rfl⟩
  · exact ⟨_, _, _, _, rfl, rfl, List.reverse_perm _, rfl, rfl⟩

/-- The hypothesis on the corners is needed: two faces with the same corners in the same cyclic order are only recognized as opposite if a corner is repeated. -/
theorem C31_degenerate_opposite : ∃ f g : Tri Nat, SameFace f g ∧ Coplanar.Returns [f] [g] [0, 1, 2] [0, 1, 2] [.opposite] [.opposite] :=
  ⟨⟨1, 2, 1⟩, ⟨1, 1, 2⟩, Or.inr (Or.inr rfl), _, _, _, rfl, rfl, .refl _, rfl, rfl⟩

-- a tetrahedron's faces against one equal, one reversed and one foreign face; the second operand stores its points in another order
example : Coplanar.Returns [⟨0, 1, 2⟩, ⟨0, 3, 1⟩, ⟨1, 3, 2⟩, ⟨2, 3, 0⟩] [⟨2, 1, 3⟩, ⟨1, 0, 2⟩, ⟨0, 1, 4⟩]
    (corefinePoints ["a", "b", "c", "d"] ["c", "b", "d", "a", "e"]).2.1 (corefinePoints ["a", "b", "c", "d"] ["c", "b", "d", "a", "e"]).2.2
    [.unknown, .coplanar, .opposite, .unknown] [.coplanar, .opposite, .unknown] :=
  ⟨_, _, _, rfl, rfl, .refl _, by decide, by decide⟩

end Kigumi.Props

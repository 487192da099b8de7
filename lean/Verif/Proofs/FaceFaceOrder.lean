import Verif.Proofs.FaceFaceHits
import Mathlib.Data.List.Perm.Subperm

/-! # Ordering the corners -/
namespace Kigumi.FaceFace
open Kigumi Outcome Geo Region Spec.Triangles

/-- The corners are a cycle for a relation that `linked` decides. -/
structure Cycle (hs : List Hit) (A : Hit → Hit → Prop) : Prop where
  nodup : hs.Nodup
  len3 : 3 ≤ hs.length
  len6 : hs.length ≤ 6
  link : ∀ h ∈ hs, ∀ h' ∈ hs, h ≠ h' → ∃ b, linked h h' = ok b ∧ (b = true ↔ A h h')
  symm : ∀ h h', A h h' → A h' h
  deg : ∀ h ∈ hs, ∃ u v, u ∈ hs ∧ v ∈ hs ∧ u ≠ h ∧ v ≠ h ∧ u ≠ v ∧ A h u ∧ A h v ∧ ∀ w ∈ hs, w ≠ h → A h w → w = u ∨ w = v
  conn : ∀ S : Hit → Prop, (∃ h ∈ hs, S h) → (∀ h ∈ hs, ∀ h' ∈ hs, S h → h ≠ h' → A h h' → S h') → ∀ h ∈ hs, S h
  edges : ∀ es : List (Hit × Hit), es.Nodup → (∀ e ∈ es, e.1 ∈ hs ∧ e.2 ∈ hs ∧ e.1 ≠ e.2 ∧ A e.1 e.2) → (∀ e ∈ es, (e.2, e.1) ∉ es) → es.length ≤ 6

/-- What `edges` contains. -/
structure EdgesOk (hs : List Hit) (A : Hit → Hit → Prop) (es : List (Nat × Nat)) : Prop where
  lt : ∀ e ∈ es, e.1 < e.2 ∧ e.2 < hs.length
  sound : ∀ e ∈ es, ∀ h h', hs[e.1]? = some h → hs[e.2]? = some h' → A h h'
  nodup : es.Nodup

variable {hs : List Hit} {A : Hit → Hit → Prop}

theorem get_inj (hn : hs.Nodup) {i j : Nat} {h : Hit} (h1 : hs[i]? = some h) (h2 : hs[j]? = some h) : i = j := by
  obtain ⟨hi, e1⟩ := List.getElem?_eq_some_iff.1 h1
  obtain ⟨hj, e2⟩ := List.getElem?_eq_some_iff.1 h2
  exact (List.Nodup.getElem_inj_iff hn).1 (e1.trans e2.symm)

theorem edgesOk_len (C : Cycle hs A) {es : List (Nat × Nat)} (E : EdgesOk hs A es) : es.length ≤ 6 := by
  have hne : hs ≠ [] := by intro e; have := C.len3; rw [e] at this; simp at this
  obtain ⟨d, hd⟩ := List.exists_mem_of_ne_nil _ hne
  have key : ∀ i, i < hs.length → hs[i]? = some (hs.getD i d) := by
    intro i hi; rw [List.getD_eq_getElem?_getD, List.getElem?_eq_getElem hi]; rfl
  have hmem : ∀ i, i < hs.length → hs.getD i d ∈ hs := fun i hi => List.mem_of_getElem? (key i hi)
  have hinj : ∀ i j, i < hs.length → j < hs.length → hs.getD i d = hs.getD j d → i = j := by
    intro i j hi hj e
    exact get_inj C.nodup (key i hi) (e ▸ key j hj)
  let f : Nat × Nat → Hit × Hit := fun e => (hs.getD e.1 d, hs.getD e.2 d)
  have := C.edges (es.map f) ?_ ?_ ?_
  · rwa [List.length_map] at this
  · refine List.Nodup.map_on ?_ E.nodup
    intro x hx y hy e
    have a := E.lt x hx; have b := E.lt y hy
    exact Prod.ext (hinj _ _ (by omega) (by omega) (congrArg Prod.fst e)) (hinj _ _ (by omega) (by omega) (congrArg Prod.snd e))
  · intro e he
    obtain ⟨x, hx, rfl⟩ := List.mem_map.1 he
    have a := E.lt x hx
    refine ⟨hmem _ (by omega), hmem _ a.2, fun e => ?_, E.sound x hx _ _ (key _ (by omega)) (key _ a.2)⟩
    have := hinj _ _ (by omega) a.2 e
    omega
  · intro e he hc
    obtain ⟨x, hx, rfl⟩ := List.mem_map.1 he
    obtain ⟨y, hy, e2⟩ := List.mem_map.1 hc
    have a := E.lt x hx; have b := E.lt y hy
    have e3 := hinj _ _ (by omega) a.2 (congrArg Prod.fst e2)
    have e4 := hinj _ _ b.2 (by omega) (congrArg Prod.snd e2)
    omega

theorem edgesFrom_cons (hs : List Hit) (i j : Nat) (ri : Hit) (js : List Nat) (es : List (Nat × Nat)) :
    edgesFrom hs i ri (j :: js) es = (at! hs j).bind fun rj => (linked ri rj).bind fun l => (if l = true then push6 es (i, j) else ok es).bind fun es => edgesFrom hs i ri js es := by
  rw [edgesFrom]
  show (at! hs j).bind _ = _
  congr 1; funext rj
  show (linked ri rj).bind _ = _
  congr 1; funext l
  cases l <;> rfl

theorem next_cons (visited : List Bool) (i j k : Nat) (es : List (Nat × Nat)) :
    next visited i ((j, k) :: es) = (if j = i then at! visited k else ok true).bind fun s => if j = i ∧ s = false then ok k else
      (if k = i then at! visited j else ok true).bind fun s' => if k = i ∧ s' = false then ok j else next visited i es := by
  rw [next]
  by_cases h1 : j = i
  · simp only [if_pos h1]
    show (at! visited k).bind _ = (at! visited k).bind _
    congr 1; funext s
    by_cases h2 : j = i ∧ s = false
    · rw [if_pos h2, if_pos h2]
    · rw [if_neg h2, if_neg h2]
      by_cases h3 : k = i
      · rw [if_pos h3, if_pos h3]; rfl
      · rw [if_neg h3, if_neg h3]; rfl
  · simp only [if_neg h1]
    show (ok true).bind _ = (ok true).bind _
    congr 1; funext s
    by_cases h2 : j = i ∧ s = false
    · rw [if_pos h2, if_pos h2]
    · rw [if_neg h2, if_neg h2]
      by_cases h3 : k = i
      · rw [if_pos h3, if_pos h3]; rfl
      · rw [if_neg h3, if_neg h3]; rfl

theorem walk_succ (hs : List Hit) (edges : List (Nat × Nat)) (fuel : Nat) (visited : List Bool) (i : Nat) (result : List Code) :
    walk hs edges (fuel + 1) visited i result = (at! hs i).bind fun inter => (push6 result (hull inter.1 inter.2)).bind fun result =>
      (if i < visited.length then ok (visited.set i true) else exn "out_of_range").bind fun visited =>
      if result.length = hs.length then ok result else (next visited i edges).bind fun i => walk hs edges fuel visited i result := by
  rw [walk]
  show (at! hs i).bind _ = _
  congr 1; funext inter
  show (push6 result (hull inter.1 inter.2)).bind _ = _
  congr 1; funext result
  by_cases h : i < visited.length
  · rw [if_pos h, if_pos h]; rfl
  · rw [if_neg h, if_neg h]; rfl

/-- The inner loop adds the pairs of linked corners. -/
theorem edgesFrom_ok (C : Cycle hs A) {i : Nat} {ri : Hit} (hi : hs[i]? = some ri) : ∀ (js : List Nat) (es : List (Nat × Nat)),
    EdgesOk hs A es → js.Nodup → (∀ j ∈ js, i < j ∧ j < hs.length) → (∀ e ∈ es, e.1 = i → e.2 ∉ js) →
    ∃ es', edgesFrom hs i ri js es = ok es' ∧ EdgesOk hs A es' ∧ (∀ e, e ∈ es' ↔ e ∈ es ∨ (e.1 = i ∧ e.2 ∈ js ∧ ∃ h', hs[e.2]? = some h' ∧ A ri h')) := by
  intro js
  induction js with
  | nil => intro es E _ _ _; exact ⟨es, rfl, E, fun e => by simp⟩
  | cons j js ih =>
    intro es E hnd hjs hfresh
    obtain ⟨h1, h2⟩ := hjs j List.mem_cons_self
    have hgj : hs[j]? = some hs[j] := List.getElem?_eq_getElem h2
    have hne : ri ≠ hs[j] := by
      intro e; have := get_inj C.nodup hi (e ▸ hgj); omega
    obtain ⟨b, hb, hA⟩ := C.link ri (List.mem_of_getElem? hi) _ (List.mem_of_getElem? hgj) hne
    have hat : at! hs j = ok hs[j] := by rw [at!_ok, hgj]
    rw [edgesFrom_cons, hat]
    show ∃ es', (linked ri hs[j]).bind (fun l => _) = ok es' ∧ _
    rw [hb]
    show ∃ es', (Outcome.bind (if b = true then push6 es (i, j) else ok es) fun edges => edgesFrom hs i ri js edges) = ok es' ∧ _
    cases hbb : b with
    | false =>
      have hnA : ¬ A ri hs[j] := by rw [← hA, hbb]; simp
      obtain ⟨es', r1, r2, r3⟩ := ih es E (List.nodup_cons.1 hnd).2 (fun j hj => hjs j (List.mem_cons_of_mem _ hj)) (fun e he h => fun hm => hfresh e he h (List.mem_cons_of_mem _ hm))
      refine ⟨es', r1, r2, fun e => ?_⟩
      rw [r3]
      constructor
      · rintro (h | ⟨a, b, c⟩)
        · exact Or.inl h
        · exact Or.inr ⟨a, List.mem_cons_of_mem _ b, c⟩
      · rintro (h | ⟨a, b, h', c, d⟩)
        · exact Or.inl h
        · rcases List.mem_cons.1 b with b | b
          · rw [b, hgj] at c; cases c; exact absurd d hnA
          · exact Or.inr ⟨a, b, h', c, d⟩
    | true =>
      have hAj : A ri hs[j] := hA.1 hbb
      have E' : EdgesOk hs A (es ++ [(i, j)]) := by
        refine ⟨?_, ?_, ?_⟩
        · intro e he
          rcases List.mem_append.1 he with he | he
          · exact E.lt e he
          · rw [List.mem_singleton.1 he]; exact ⟨h1, h2⟩
        · intro e he h h' g g'
          rcases List.mem_append.1 he with he | he
          · exact E.sound e he h h' g g'
          · rw [List.mem_singleton.1 he] at g g'
            dsimp only at g g'
            rw [hi] at g; rw [hgj] at g'; cases g; cases g'; exact hAj
        · refine List.Nodup.append E.nodup (List.nodup_singleton _) ?_
          intro e he he'
          rw [List.mem_singleton.1 he'] at he
          exact hfresh _ he rfl List.mem_cons_self
      have hlen := edgesOk_len C E'
      rw [List.length_append, List.length_singleton] at hlen
      have hp : push6 es (i, j) = ok (es ++ [(i, j)]) := by unfold push6; rw [if_pos (by omega)]
      rw [if_pos rfl, hp]
      obtain ⟨es', r1, r2, r3⟩ := ih (es ++ [(i, j)]) E' (List.nodup_cons.1 hnd).2 (fun j hj => hjs j (List.mem_cons_of_mem _ hj)) (by
        intro e he h hm
        rcases List.mem_append.1 he with he | he
        · exact hfresh e he h (List.mem_cons_of_mem _ hm)
        · rw [List.mem_singleton.1 he] at hm
          exact (List.nodup_cons.1 hnd).1 hm)
      refine ⟨es', r1, r2, fun e => ?_⟩
      rw [r3]
      constructor
      · rintro (h | ⟨a, b, c⟩)
        · rcases List.mem_append.1 h with h | h
          · exact Or.inl h
          · rw [List.mem_singleton.1 h]; exact Or.inr ⟨rfl, List.mem_cons_self, _, hgj, hAj⟩
        · exact Or.inr ⟨a, List.mem_cons_of_mem _ b, c⟩
      · rintro (h | ⟨a, b, h', c, d⟩)
        · exact Or.inl (List.mem_append.2 (Or.inl h))
        · rcases List.mem_cons.1 b with b | b
          · left; apply List.mem_append.2; right; rw [List.mem_singleton]; exact Prod.ext a b
          · exact Or.inr ⟨a, b, h', c, d⟩

theorem mem_drop_range {n k j : Nat} : j ∈ (List.range n).drop k ↔ k ≤ j ∧ j < n := by
  rw [List.mem_iff_getElem?]
  constructor
  · rintro ⟨i, hi⟩
    rw [List.getElem?_drop] at hi
    obtain ⟨h1, h2⟩ := List.getElem?_eq_some_iff.1 hi
    rw [List.getElem_range] at h2
    rw [List.length_range] at h1
    omega
  · rintro ⟨h1, h2⟩
    refine ⟨j - k, ?_⟩
    rw [List.getElem?_drop, List.getElem?_range (by omega)]
    congr 1; omega

/-- The outer loop. -/
theorem allEdges_ok (C : Cycle hs A) : ∀ (is : List Nat) (es : List (Nat × Nat)),
    EdgesOk hs A es → is.Nodup → (∀ i ∈ is, i < hs.length) → (∀ e ∈ es, e.1 ∉ is) →
    ∃ es', allEdges hs is es = ok es' ∧ EdgesOk hs A es' ∧ (∀ e, e ∈ es' ↔ e ∈ es ∨ (e.1 ∈ is ∧ e.1 < e.2 ∧ ∃ h h', hs[e.1]? = some h ∧ hs[e.2]? = some h' ∧ A h h')) := by
  intro is
  induction is with
  | nil => intro es E _ _ _; exact ⟨es, rfl, E, fun e => by simp⟩
  | cons i is ih =>
    intro es E hnd his hfresh
    have h2 := his i List.mem_cons_self
    have hgi : hs[i]? = some hs[i] := List.getElem?_eq_getElem h2
    unfold allEdges
    have hat : at! hs i = ok hs[i] := by rw [at!_ok, hgi]
    rw [hat]
    show ∃ es', (edgesFrom hs i hs[i] ((List.range hs.length).drop (i + 1)) es).bind (fun edges => allEdges hs is edges) = ok es' ∧ _
    obtain ⟨es1, r1, E1, m1⟩ := edgesFrom_ok C hgi ((List.range hs.length).drop (i + 1)) es E ((List.drop_sublist _ _).nodup List.nodup_range)
      (fun j hj => by rw [mem_drop_range] at hj; omega) (fun e he h => absurd (h ▸ List.mem_cons_self) (hfresh e he))
    rw [r1]
    obtain ⟨es', r2, E2, m2⟩ := ih es1 E1 (List.nodup_cons.1 hnd).2 (fun j hj => his j (List.mem_cons_of_mem _ hj)) (by
      intro e he hm
      rcases (m1 e).1 he with h | ⟨h, _⟩
      · exact hfresh e h (List.mem_cons_of_mem _ hm)
      · rw [h] at hm; exact (List.nodup_cons.1 hnd).1 hm)
    refine ⟨es', r2, E2, fun e => ?_⟩
    rw [m2, m1]
    constructor
    · rintro ((h | ⟨a, b, h', c, d⟩) | ⟨a, b⟩)
      · exact Or.inl h
      · refine Or.inr ⟨by rw [a]; exact List.mem_cons_self, ?_, hs[i], h', by rw [a]; exact hgi, c, d⟩
        rw [mem_drop_range] at b; omega
      · exact Or.inr ⟨List.mem_cons_of_mem _ a, b⟩
    · rintro (h | ⟨a, b, h, h', c, d, f⟩)
      · exact Or.inl (Or.inl h)
      · rcases List.mem_cons.1 a with a | a
        · rw [a, hgi] at c; cases c
          refine Or.inl (Or.inr ⟨a, ?_, h', d, f⟩)
          rw [mem_drop_range]
          obtain ⟨g, _⟩ := List.getElem?_eq_some_iff.1 d
          omega
        · exact Or.inr ⟨a, b, h, h', c, d, f⟩

/-- All edges are found. -/
theorem edges_ok (C : Cycle hs A) : ∃ es, allEdges hs (List.range (hs.length - 1)) [] = ok es ∧ EdgesOk hs A es ∧
    ∀ i j h h', i ≠ j → hs[i]? = some h → hs[j]? = some h' → A h h' → (i, j) ∈ es ∨ (j, i) ∈ es := by
  obtain ⟨es, r, E, m⟩ := allEdges_ok C (List.range (hs.length - 1)) [] ⟨by simp, by simp, List.nodup_nil⟩ List.nodup_range (fun i hi => by rw [List.mem_range] at hi; omega) (by simp)
  refine ⟨es, r, E, ?_⟩
  have key : ∀ i j h h', i < j → hs[i]? = some h → hs[j]? = some h' → A h h' → (i, j) ∈ es := by
    intro i j h h' hij hi hj hA
    obtain ⟨g, _⟩ := List.getElem?_eq_some_iff.1 hj
    exact (m (i, j)).2 (Or.inr ⟨List.mem_range.2 (by simp only; omega), hij, h, h', hi, hj, hA⟩)
  intro i j h h' hij hi hj hA
  rcases Nat.lt_or_gt_of_ne hij with h1 | h1
  · exact Or.inl (key i j h h' h1 hi hj hA)
  · exact Or.inr (key j i h' h h1 hj hi (C.symm _ _ hA))

/-- The next corner: an unvisited neighbour, or none. -/
theorem next_ok {visited : List Bool} {i : Nat} : ∀ (es : List (Nat × Nat)), (∀ e ∈ es, e.1 < visited.length ∧ e.2 < visited.length) →
    ∃ k, next visited i es = ok k ∧ ((((i, k) ∈ es ∨ (k, i) ∈ es) ∧ visited[k]? = some false) ∨ (k = i ∧ ∀ j, (i, j) ∈ es ∨ (j, i) ∈ es → visited[j]? = some true)) := by
  intro es
  induction es with
  | nil => intro _; exact ⟨i, rfl, Or.inr ⟨rfl, by simp⟩⟩
  | cons e es ih =>
    obtain ⟨j, k⟩ := e
    intro hes
    obtain ⟨hj, hk⟩ := hes (j, k) List.mem_cons_self
    dsimp only at hj hk
    obtain ⟨k', r, hr⟩ := ih (fun e he => hes e (List.mem_cons_of_mem _ he))
    have aj : at! visited j = ok visited[j] := by rw [at!_ok, List.getElem?_eq_getElem hj]
    have ak : at! visited k = ok visited[k] := by rw [at!_ok, List.getElem?_eq_getElem hk]
    have s1 : ∃ b, (if j = i then at! visited k else ok true) = ok b ∧ (j = i → visited[k]? = some b) := by
      by_cases h : j = i
      · rw [if_pos h, ak]; exact ⟨_, rfl, fun _ => List.getElem?_eq_getElem hk⟩
      · rw [if_neg h]; exact ⟨_, rfl, fun h' => absurd h' h⟩
    have s2 : ∃ b, (if k = i then at! visited j else ok true) = ok b ∧ (k = i → visited[j]? = some b) := by
      by_cases h : k = i
      · rw [if_pos h, aj]; exact ⟨_, rfl, fun _ => List.getElem?_eq_getElem hj⟩
      · rw [if_neg h]; exact ⟨_, rfl, fun h' => absurd h' h⟩
    obtain ⟨b1, e1, v1⟩ := s1
    obtain ⟨b2, e2, v2⟩ := s2
    rw [next_cons, e1, e2]
    show ∃ k_1, (if j = i ∧ b1 = false then ok k else if k = i ∧ b2 = false then ok j else next visited i es) = ok k_1 ∧ _
    by_cases c1 : j = i ∧ b1 = false
    · rw [if_pos c1]
      refine ⟨k, rfl, Or.inl ⟨Or.inl (by rw [← c1.1]; exact List.mem_cons_self), ?_⟩⟩
      rw [v1 c1.1, c1.2]
    · rw [if_neg c1]
      by_cases c2 : k = i ∧ b2 = false
      · rw [if_pos c2]
        refine ⟨j, rfl, Or.inl ⟨Or.inr (by rw [← c2.1]; exact List.mem_cons_self), ?_⟩⟩
        rw [v2 c2.1, c2.2]
      · rw [if_neg c2]
        refine ⟨k', r, ?_⟩
        rcases hr with ⟨h, hv⟩ | ⟨h, hv⟩
        · exact Or.inl ⟨h.imp (List.mem_cons_of_mem _) (List.mem_cons_of_mem _), hv⟩
        · refine Or.inr ⟨h, fun l hl => ?_⟩
          have tr : ∀ b : Bool, ¬ b = false → b = true := by intro b; cases b <;> simp
          rcases hl with hl | hl
          · rcases List.mem_cons.1 hl with hl | hl
            · cases hl
              rw [v1 rfl, tr b1 (fun hb => c1 ⟨rfl, hb⟩)]
            · exact hv l (Or.inl hl)
          · rcases List.mem_cons.1 hl with hl | hl
            · cases hl
              rw [v2 rfl, tr b2 (fun hb => c2 ⟨rfl, hb⟩)]
            · exact hv l (Or.inr hl)

/-- A path of corners. -/
structure Path (hs : List Hit) (A : Hit → Hit → Prop) (vs : List Hit) : Prop where
  mem : ∀ h ∈ vs, h ∈ hs
  nodup : vs.Nodup
  chain : ∀ j x y, vs[j]? = some x → vs[j + 1]? = some y → A x y

/-- If all neighbours of the last corner of a path are on the path, then the path is everything, and the last corner is a neighbour of the first. -/
theorem stuck (C : Cycle hs A) {vs : List Hit} (P : Path hs A vs) {l : Hit} {k : Nat} (hk : vs.length = k + 1) (hl : vs[k]? = some l)
    (hall : ∀ w ∈ hs, w ≠ l → A l w → w ∈ vs) : (∀ h ∈ hs, h ∈ vs) ∧ ∀ f, vs[0]? = some f → A l f := by
  have inj : ∀ {i j : Nat} {h : Hit}, vs[i]? = some h → vs[j]? = some h → i = j := fun h1 h2 => get_inj P.nodup h1 h2
  have mem : ∀ {i : Nat} {h : Hit}, vs[i]? = some h → h ∈ hs := fun h => P.mem _ (List.mem_of_getElem? h)
  have hget : ∀ i, i < vs.length → ∃ h, vs[i]? = some h := fun i hi => ⟨_, List.getElem?_eq_getElem hi⟩
  -- the neighbours of an inner corner are the previous and the next one
  have inner : ∀ j x, 0 < j → j < k → vs[j]? = some x → ∀ w ∈ hs, w ≠ x → A x w → vs[j - 1]? = some w ∨ vs[j + 1]? = some w := by
    intro j x h0 hj hx w hw hne hA
    obtain ⟨y, hy⟩ := hget (j - 1) (by omega)
    obtain ⟨z, hz⟩ := hget (j + 1) (by omega)
    have hAy : A x y := C.symm _ _ (P.chain (j - 1) y x hy (by rw [Nat.sub_add_cancel h0]; exact hx))
    have hAz : A x z := P.chain j x z hx hz
    have nyz : y ≠ z := by rintro rfl; have := inj hy hz; omega
    have nyx : y ≠ x := by rintro rfl; have := inj hy hx; omega
    have nzx : z ≠ x := by rintro rfl; have := inj hz hx; omega
    obtain ⟨u, v, _, _, _, _, _, _, _, only⟩ := C.deg x (mem hx)
    have e1 := only y (mem hy) nyx hAy
    have e2 := only z (mem hz) nzx hAz
    have e3 := only w hw hne hA
    rcases e1 with rfl | rfl <;> rcases e2 with rfl | rfl <;> rcases e3 with rfl | rfl <;>
      first | exact absurd rfl nyz | exact Or.inl hy | exact Or.inr hz
  -- the first corner is a neighbour of the last
  obtain ⟨f, hf⟩ := hget 0 (by omega)
  have hlf : A l f ∧ f ≠ l := by
    obtain ⟨u, v, hu, hv, hul, hvl, huv, hAu, hAv, _⟩ := C.deg l (mem hl)
    -- one of the two is not the previous one
    have : ∃ w, w ∈ hs ∧ w ≠ l ∧ A l w ∧ ∀ m, k = m + 1 → vs[m]? ≠ some w := by
      by_cases h : ∀ m, k = m + 1 → vs[m]? ≠ some u
      · exact ⟨u, hu, hul, hAu, h⟩
      · push Not at h
        obtain ⟨m, hm, hmu⟩ := h
        refine ⟨v, hv, hvl, hAv, fun m' hm' h' => huv ?_⟩
        have : m' = m := by omega
        rw [this, hmu] at h'
        exact Option.some.inj h'
    obtain ⟨w, hw, hwl, hAw, hwm⟩ := this
    obtain ⟨j, hj⟩ := List.getElem?_of_mem (hall w hw hwl hAw)
    obtain ⟨hjl, _⟩ := List.getElem?_eq_some_iff.1 hj
    have hjk : j ≠ k := by rintro rfl; rw [hl] at hj; cases hj; exact hwl rfl
    by_cases h0 : j = 0
    · rw [h0, hf] at hj; cases hj; exact ⟨hAw, hwl⟩
    · rcases inner j w (by omega) (by omega) hj l (mem hl) (Ne.symm hwl) (C.symm _ _ hAw) with h | h
      · have := inj h hl; omega
      · have := inj h hl
        exact absurd hj (hwm j this.symm)
  have hk2 : 2 ≤ k := by
    by_contra hc
    obtain ⟨u, v, hu, hv, hul, hvl, huv, hAu, hAv, _⟩ := C.deg l (mem hl)
    obtain ⟨i, hi⟩ := List.getElem?_of_mem (hall u hu hul hAu)
    obtain ⟨j, hj⟩ := List.getElem?_of_mem (hall v hv hvl hAv)
    obtain ⟨hil, _⟩ := List.getElem?_eq_some_iff.1 hi
    obtain ⟨hjl, _⟩ := List.getElem?_eq_some_iff.1 hj
    have a : i ≠ k := by rintro rfl; rw [hl] at hi; cases hi; exact hul rfl
    have b : j ≠ k := by rintro rfl; rw [hl] at hj; cases hj; exact hvl rfl
    have : i = j := by omega
    subst this
    rw [hi] at hj; cases hj; exact huv rfl
  refine ⟨?_, fun f' hf' => by rw [hf] at hf'; cases hf'; exact hlf.1⟩
  refine C.conn (fun h => h ∈ vs) ⟨l, mem hl, List.mem_of_getElem? hl⟩ ?_
  intro x hx w hw hxv hne hA
  obtain ⟨j, hj⟩ := List.getElem?_of_mem hxv
  obtain ⟨hjl, _⟩ := List.getElem?_eq_some_iff.1 hj
  by_cases h0 : j = 0
  · subst h0
    rw [hf] at hj; cases hj
    obtain ⟨y, hy⟩ := hget 1 (by omega)
    have hAy : A f y := P.chain 0 f y hf hy
    have nyl : y ≠ l := by rintro rfl; have := inj hy hl; omega
    have nyf : y ≠ f := by rintro rfl; have := inj hy hf; omega
    obtain ⟨u, v, _, _, _, _, _, _, _, only⟩ := C.deg f (mem hf)
    have e1 := only y (mem hy) nyf hAy
    have e2 := only l (mem hl) (Ne.symm hlf.2) (C.symm _ _ hlf.1)
    have e3 := only w hw (Ne.symm hne) hA
    have hyv := List.mem_of_getElem? hy
    have hlv := List.mem_of_getElem? hl
    rcases e1 with rfl | rfl <;> rcases e2 with rfl | rfl <;> rcases e3 with rfl | rfl <;>
      first | exact absurd rfl nyl | assumption
  · by_cases hjk : j = k
    · subst hjk
      rw [hl] at hj; cases hj
      exact hall w hw (Ne.symm hne) hA
    · rcases inner j x (by omega) (by omega) hj w hw (Ne.symm hne) hA with h | h <;> exact List.mem_of_getElem? h

/-- The code of a pair. -/
def codeOf (h : Hit) : Code := hull h.1 h.2

/-- The walk: `vs` are the corners before `i`. -/
theorem walk_ok (C : Cycle hs A) {es : List (Nat × Nat)} (E : EdgesOk hs A es)
    (full : ∀ i j h h', i ≠ j → hs[i]? = some h → hs[j]? = some h' → A h h' → (i, j) ∈ es ∨ (j, i) ∈ es) :
    ∀ (fuel : Nat) (visited : List Bool) (i : Nat) (vs : List Hit) (hi : Hit), visited.length = hs.length → hs[i]? = some hi →
      (∀ (j : Nat) (h : Hit), hs[j]? = some h → (visited[j]? = some true ↔ h ∈ vs)) → Path hs A (vs ++ [hi]) → fuel + vs.length = hs.length →
      ∃ ws, walk hs es fuel visited i (vs.map codeOf) = ok (ws.map codeOf) ∧ Path hs A ws ∧ ws.Perm hs ∧ (∀ f l, ws[0]? = some f → ws[hs.length - 1]? = some l → A l f) := by
  intro fuel
  induction fuel with
  | zero =>
    intro visited i vs hi hlen hgi hvis P hfuel
    exfalso
    have h1 : (vs ++ [hi]).length ≤ hs.length := (List.subperm_of_subset P.nodup P.mem).length_le
    rw [List.length_append, List.length_singleton] at h1
    omega
  | succ fuel ih =>
    intro visited i vs hi hlen hgi hvis P hfuel
    obtain ⟨hil, _⟩ := List.getElem?_eq_some_iff.1 hgi
    have h6 := C.len6
    have hat : at! hs i = ok hi := by rw [at!_ok, hgi]
    rw [walk_succ, hat]
    have hpush : push6 (vs.map codeOf) (hull hi.1 hi.2) = ok ((vs ++ [hi]).map codeOf) := by
      unfold push6
      rw [if_pos (by rw [List.length_map]; omega), List.map_append]; rfl
    show ∃ ws, ((push6 (vs.map codeOf) (hull hi.1 hi.2)).bind fun result => _) = _ ∧ _
    rw [hpush]
    show ∃ ws, ((if i < visited.length then ok (visited.set i true) else exn "out_of_range").bind fun visited => _) = _ ∧ _
    rw [if_pos (by omega)]
    show ∃ ws, (if ((vs ++ [hi]).map codeOf).length = hs.length then ok ((vs ++ [hi]).map codeOf) else
      (next (visited.set i true) i es).bind fun i' => walk hs es fuel (visited.set i true) i' ((vs ++ [hi]).map codeOf)) = _ ∧ _
    have hvlen : (vs ++ [hi]).length = vs.length + 1 := by rw [List.length_append, List.length_singleton]
    have hlast : (vs ++ [hi])[vs.length]? = some hi := by simp
    by_cases hfull : ((vs ++ [hi]).map codeOf).length = hs.length
    · rw [if_pos hfull]
      rw [List.length_map, hvlen] at hfull
      have hperm : (vs ++ [hi]).Perm hs := (List.subperm_of_subset P.nodup P.mem).perm_of_length_le (by rw [hvlen]; omega)
      refine ⟨vs ++ [hi], rfl, P, hperm, ?_⟩
      obtain ⟨_, hAf⟩ := stuck C P hvlen hlast (fun w hw _ _ => hperm.mem_iff.2 hw)
      intro f l hf hl
      have : hs.length - 1 = vs.length := by omega
      rw [this, hlast] at hl; cases hl
      exact hAf f hf
    · rw [if_neg hfull]
      rw [List.length_map, hvlen] at hfull
      have hvl : (visited.set i true).length = hs.length := by rw [List.length_set]; exact hlen
      obtain ⟨k, rk, hk⟩ := next_ok (visited := visited.set i true) (i := i) es (fun e he => by
        have := E.lt e he; rw [hvl]; omega)
      rw [rk]
      have hvis' : ∀ (j : Nat) (h : Hit), hs[j]? = some h → ((visited.set i true)[j]? = some true ↔ h ∈ vs ++ [hi]) := by
        intro j h hj
        obtain ⟨hjl, _⟩ := List.getElem?_eq_some_iff.1 hj
        rw [List.mem_append, List.mem_singleton]
        by_cases hij : i = j
        · subst hij
          rw [hgi] at hj; cases hj
          rw [List.getElem?_set_self (by omega)]; simp
        · rw [List.getElem?_set_ne hij, hvis j h hj]
          constructor
          · exact Or.inl
          · rintro (h' | rfl)
            · exact h'
            · exact absurd (get_inj C.nodup hgi hj) hij
      rcases hk with ⟨hmem, hkv⟩ | ⟨rfl, hno⟩
      · have hkl : k < hs.length := by
          rcases hmem with h | h <;> have := E.lt _ h <;> simp only at this <;> omega
        have hgk : hs[k]? = some hs[k] := List.getElem?_eq_getElem hkl
        have hA : A hi hs[k] := by
          rcases hmem with h | h
          · exact E.sound _ h _ _ hgi hgk
          · exact C.symm _ _ (E.sound _ h _ _ hgk hgi)
        have hnew : hs[k] ∉ vs ++ [hi] := by
          rw [← hvis' k _ hgk, hkv]; simp
        refine ih (visited.set i true) k (vs ++ [hi]) hs[k] hvl hgk hvis' ⟨?_, ?_, ?_⟩ (by rw [hvlen]; omega)
        · intro h hh
          rcases List.mem_append.1 hh with hh | hh
          · exact P.mem h hh
          · rw [List.mem_singleton.1 hh]; exact List.mem_of_getElem? hgk
        · refine List.Nodup.append P.nodup (List.nodup_singleton _) ?_
          intro x hx hx'
          rw [List.mem_singleton.1 hx'] at hx; exact hnew hx
        · intro j x y hx hy
          obtain ⟨hjl, _⟩ := List.getElem?_eq_some_iff.1 hy
          rw [List.length_append, List.length_singleton] at hjl
          rw [List.getElem?_append_left (by omega)] at hx
          by_cases h1 : j + 1 < (vs ++ [hi]).length
          · rw [List.getElem?_append_left h1] at hy
            exact P.chain j x y hx hy
          · have e : j = vs.length := by omega
            subst e
            rw [hlast] at hx; cases hx
            rw [List.getElem?_append_right (by omega), hvlen] at hy
            simp at hy
            rw [← hy]; exact hA
      · exfalso
        have := stuck C P hvlen hlast (fun w hw hne hA => by
          obtain ⟨j, hj⟩ := List.getElem?_of_mem hw
          have hij : k ≠ j := by rintro rfl; rw [hgi] at hj; cases hj; exact hne rfl
          have := hno j (full k j hi w hij hgi hj hA)
          exact (hvis' j w hj).1 this)
        have hle := (List.subperm_of_subset C.nodup this.1).length_le
        rw [hvlen] at hle
        omega

/-- **The ordering**: the corners of a cycle are put in order along the cycle. -/
theorem order_ok (C : Cycle hs A) : ∃ ws, order hs = ok (ws.map codeOf) ∧ Path hs A ws ∧ ws.Perm hs ∧ (∀ f l, ws[0]? = some f → ws[hs.length - 1]? = some l → A l f) := by
  have h3 := C.len3; have h6 := C.len6
  obtain ⟨es, r, E, full⟩ := edges_ok C
  unfold order
  rw [if_neg (by omega), r]
  show ∃ ws, (if 6 < hs.length then exn "bad_alloc" else walk hs es hs.length (List.replicate hs.length false) 0 []) = _ ∧ _
  rw [if_neg (by omega)]
  have hg0 : hs[0]? = some hs[0] := List.getElem?_eq_getElem (by omega)
  refine walk_ok C E full hs.length (List.replicate hs.length false) 0 [] hs[0] (List.length_replicate) hg0 ?_ ⟨?_, ?_, ?_⟩ (by simp)
  · intro j h hj
    obtain ⟨hjl, _⟩ := List.getElem?_eq_some_iff.1 hj
    rw [List.getElem?_replicate]; simp [hjl]
  · intro h hh; rw [List.nil_append, List.mem_singleton] at hh; rw [hh]; exact List.mem_of_getElem? hg0
  · simp
  · intro j x y hx hy
    simp at hy

end Kigumi.FaceFace

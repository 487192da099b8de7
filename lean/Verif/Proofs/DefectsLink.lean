import Verif.Proofs.Defects

/-! # The link graph of a vertex -/
namespace Kigumi.Defects
open Kigumi Outcome Spec.Defects PointList

/-! ### `vf_map` -/

/-- Numbers of the proper faces with the vertex, from number `k`. -/
def inc (v : Nat) : Nat → List (Tri Nat) → List Nat
  | _, [] => []
  | k, f :: fs => (if Proper3 f ∧ v ∈ f.toList then [k] else []) ++ inc v (k + 1) fs

theorem pushFace_ok {vf : List (List Nat)} {v : Nat} (fi : Nat) (h : v < vf.length) :
    ∃ vf', pushFace vf v fi = ok vf' ∧ vf'.length = vf.length ∧ ∀ w, vf'.getD w [] = vf.getD w [] ++ (if w = v then [fi] else []) := by
  refine ⟨vf.set v (vf[v] ++ [fi]), by simp only [pushFace, at!, List.getElem?_eq_getElem h, ok_bind], by simp, ?_⟩
  intro w
  simp only [List.getD_eq_getElem?_getD, List.getElem?_set]
  by_cases hw : w = v
  · subst hw; simp [h]
  · have : v ≠ w := fun e => hw e.symm
    simp [hw, this]

theorem vfLoop_ok : ∀ (fs : List (Tri Nat)) (k : Nat) (vf : List (List Nat)), (∀ f ∈ fs, ∀ v ∈ f.toList, v < vf.length) →
    ∃ vf', vfLoop k fs vf = ok vf' ∧ vf'.length = vf.length ∧ ∀ w, vf'.getD w [] = vf.getD w [] ++ inc w k fs := by
  intro fs
  induction fs with
  | nil => intro k vf _; exact ⟨vf, rfl, rfl, by simp [inc]⟩
  | cons f fs ih =>
    intro k vf h
    by_cases hr : repeats f = true
    · obtain ⟨vf', a, b, c⟩ := ih (k + 1) vf (fun g hg => h g (List.mem_cons_of_mem _ hg))
      have hn : ¬ Proper3 f := by rw [← repeats_iff]; simp [hr]
      exact ⟨vf', by rw [vfLoop, if_pos hr, a], b, fun w => by rw [c]; simp [inc, hn]⟩
    · have hp : Proper3 f := by rw [← repeats_iff]; simpa using hr
      have hf := h f (by simp)
      obtain ⟨v1, a1, b1, c1⟩ := pushFace_ok k (hf f.a (by simp [Tri.toList]))
      obtain ⟨v2, a2, b2, c2⟩ := pushFace_ok (vf := v1) k (by rw [b1]; exact hf f.b (by simp [Tri.toList]))
      obtain ⟨v3, a3, b3, c3⟩ := pushFace_ok (vf := v2) k (by rw [b2, b1]; exact hf f.c (by simp [Tri.toList]))
      have hl : v3.length = vf.length := by rw [b3, b2, b1]
      obtain ⟨vf', a, b, c⟩ := ih (k + 1) v3 (fun g hg v hv => by rw [hl]; exact h g (List.mem_cons_of_mem _ hg) v hv)
      refine ⟨vf', by rw [vfLoop, if_neg hr, a1]; simp only [ok_bind, a2, a3, a], by rw [b, hl], fun w => ?_⟩
      rw [c, c3, c2, c1]
      obtain ⟨p1, p2, p3⟩ := hp
      simp only [inc, Proper3, p1, p2, p3, ne_eq, not_false_eq_true, true_and, Tri.toList, List.mem_cons, List.not_mem_nil, or_false]
      by_cases w1 : w = f.a
      · subst w1; simp [p1, p3]
      · by_cases w2 : w = f.b
        · subst w2; simp [w1, p2]
        · by_cases w3 : w = f.c
          · subst w3; simp [w1, w2]
          · simp [w1, w2, w3]

/-- The edge contributed by face number `fi`. -/
def linkEdge (faces : List (Tri Nat)) (v fi : Nat) : Nat × Nat :=
  match faces[fi]? with
  | some f => (nextVertex f v, prevVertex f v)
  | none => (0, 0)

theorem inc_link (v : Nat) (faces : List (Tri Nat)) : ∀ (fs : List (Tri Nat)) (k : Nat), (∀ j : Nat, faces[k + j]? = fs[j]?) →
    (inc v k fs).map (linkEdge faces v) = link fs v ∧ ∀ fi ∈ inc v k fs, fi < faces.length := by
  intro fs
  induction fs with
  | nil => intro k _; simp [inc, link]
  | cons f fs ih =>
    intro k h
    obtain ⟨i1, i2⟩ := ih (k + 1) (fun j => by have := h (j + 1); rw [show k + (j + 1) = k + 1 + j by omega] at this; simpa using this)
    have h0 : faces[k]? = some f := by simpa using h 0
    by_cases hp : Proper3 f
    · have hl : link (f :: fs) v = oppositeSide f v ++ link fs v := by simp [link, List.filter_cons, hp]
      rw [hl, inc]
      obtain ⟨p1, p2, p3⟩ := hp
      by_cases hv : v ∈ f.toList
      · rw [if_pos ⟨⟨p1, p2, p3⟩, hv⟩]
        refine ⟨?_, ?_⟩
        · rw [List.map_append, i1]
          congr 1
          simp only [List.map_cons, List.map_nil, linkEdge, h0, oppositeSide, nextVertex, prevVertex]
          simp only [Tri.toList, List.mem_cons, List.not_mem_nil, or_false] at hv
          rcases hv with hv | hv | hv
          · simp [hv]
          · subst hv
            have : ¬ f.b = f.a := fun e => p1 e.symm
            simp [p1, this]
          · subst hv
            have e1 : ¬ f.c = f.a := fun e => p3 e.symm
            have e2 : ¬ f.c = f.b := fun e => p2 e.symm
            simp [p3, p2, e1, e2]
        · intro fi hfi
          rcases List.mem_append.1 hfi with hfi | hfi
          · simp only [List.mem_cons, List.not_mem_nil, or_false] at hfi
            subst hfi; exact (List.getElem?_eq_some_iff.1 h0).1
          · exact i2 fi hfi
      · rw [if_neg (fun h => hv h.2)]
        refine ⟨?_, by simpa using i2⟩
        simp only [Tri.toList, List.mem_cons, List.not_mem_nil, or_false, not_or] at hv
        simp [i1, oppositeSide, hv]
    · have hl : link (f :: fs) v = link fs v := by simp [link, List.filter_cons, hp]
      rw [hl, inc, if_neg (fun h => hp h.1)]
      exact ⟨by simpa using i1, by simpa using i2⟩

/-! ### Local numbering -/

/-- Entries are numbered in order and keys are unique. -/
structure LInv (m : List (Nat × Nat)) : Prop where
  nums : m.map Prod.snd = List.range m.length
  nodup : (m.map Prod.fst).Nodup

theorem findK_some {m : List (Nat × Nat)} (h : (m.map Prod.fst).Nodup) {k v : Nat} (hm : (k, v) ∈ m) : find m k = some v := by
  induction m with
  | nil => cases hm
  | cons x m ih =>
    obtain ⟨a, u⟩ := x
    simp only [List.map_cons, List.nodup_cons] at h
    rcases List.mem_cons.1 hm with e | hm
    · cases e; simp [find]
    · have : a ≠ k := by rintro rfl; exact h.1 (List.mem_map.2 ⟨_, hm, rfl⟩)
      simp only [find, this, if_false]; exact ih h.2 hm

theorem emplaceSize_inv {m : List (Nat × Nat)} (h : LInv m) (v : Nat) : LInv (emplaceSize m v) ∧ ∀ k, k ∈ (emplaceSize m v).map Prod.fst ↔ k ∈ m.map Prod.fst ∨ k = v := by
  unfold emplaceSize
  split
  · rename_i i hi
    refine ⟨h, fun k => ⟨Or.inl, ?_⟩⟩
    rintro (hk | rfl)
    · exact hk
    · exact List.mem_map.2 ⟨_, find_some hi, rfl⟩
  · rename_i hn
    refine ⟨⟨?_, ?_⟩, fun k => by simp⟩
    · rw [List.map_append, h.nums]; simp [List.range_succ]
    · rw [List.map_append, List.nodup_append]
      refine ⟨h.nodup, by simp, ?_⟩
      rintro a ha b hb rfl
      simp only [List.map_cons, List.map_nil, List.mem_cons, List.not_mem_nil, or_false] at hb
      subst hb
      obtain ⟨e, he, e1⟩ := List.mem_map.1 ha
      obtain ⟨e1', e2'⟩ := e; simp only at e1; subst e1; exact find_none hn _ he

theorem localLoop_ok (faces : List (Tri Nat)) (v : Nat) : ∀ (fis : List Nat) (m : List (Nat × Nat)), LInv m → (∀ fi ∈ fis, fi < faces.length) →
    ∃ m', localLoop faces v fis m = ok m' ∧ LInv m' ∧ ∀ k, k ∈ m'.map Prod.fst ↔ k ∈ m.map Prod.fst ∨ End (fis.map (linkEdge faces v)) k := by
  intro fis
  induction fis with
  | nil => intro m h _; exact ⟨m, rfl, h, by simp [End]⟩
  | cons fi fis ih =>
    intro m h hb
    have hfi := hb fi (by simp)
    obtain ⟨a1, b1⟩ := emplaceSize_inv h (nextVertex faces[fi] v)
    obtain ⟨a2, b2⟩ := emplaceSize_inv a1 (prevVertex faces[fi] v)
    obtain ⟨m', c1, c2, c3⟩ := ih _ a2 (fun x hx => hb x (List.mem_cons_of_mem _ hx))
    refine ⟨m', by simp only [localLoop, at!, List.getElem?_eq_getElem hfi, ok_bind, c1], c2, fun k => ?_⟩
    rw [c3, b2, b1]
    have e : End ((fi :: fis).map (linkEdge faces v)) k ↔ (k = nextVertex faces[fi] v ∨ k = prevVertex faces[fi] v) ∨ End (fis.map (linkEdge faces v)) k := by
      simp only [End, List.map_cons, List.mem_cons, exists_eq_or_imp, linkEdge, List.getElem?_eq_getElem hfi]
    rw [e]
    simp only [or_assoc]

/-- The number of a key. -/
def num (m : List (Nat × Nat)) (x : Nat) : Nat := (find m x).getD 0

theorem LInv.num_spec {m : List (Nat × Nat)} (h : LInv m) {x : Nat} (hx : x ∈ m.map Prod.fst) : find m x = some (num m x) ∧ num m x < m.length ∧ (x, num m x) ∈ m := by
  obtain ⟨⟨k, v⟩, he, rfl⟩ := List.mem_map.1 hx
  have e := findK_some h.nodup he
  have hv : num m k = v := by simp [num, e]
  refine ⟨by rw [hv]; exact e, ?_, by simpa [hv] using he⟩
  simp only [hv]
  have : v ∈ m.map Prod.snd := List.mem_map.2 ⟨_, he, rfl⟩
  rw [h.nums] at this
  simpa using this

theorem LInv.num_inj {m : List (Nat × Nat)} (h : LInv m) {x y : Nat} (hx : x ∈ m.map Prod.fst) (hy : y ∈ m.map Prod.fst) (e : num m x = num m y) : x = y := by
  obtain ⟨-, -, h1⟩ := h.num_spec hx
  obtain ⟨-, -, h2⟩ := h.num_spec hy
  rw [← e] at h2
  obtain ⟨i, hi, e1⟩ := List.getElem_of_mem h1
  obtain ⟨j, hj, e2⟩ := List.getElem_of_mem h2
  have k : ∀ (i : Nat) (hi : i < m.length), (m[i]).2 = i := by
    intro i hi
    have : (m.map Prod.snd)[i]'(by simpa using hi) = i := by simp only [h.nums, List.getElem_range]
    simpa using this
  have a := k i hi
  have b := k j hj
  rw [e1] at a; rw [e2] at b
  simp only at a b
  have : i = j := by omega
  subst this
  rw [e1] at e2
  exact (Prod.mk.inj e2).1

theorem LInv.num_surj {m : List (Nat × Nat)} (h : LInv m) {i : Nat} (hi : i < m.length) : ∃ x, x ∈ m.map Prod.fst ∧ num m x = i := by
  refine ⟨(m[i]).1, List.mem_map.2 ⟨_, List.getElem_mem hi, rfl⟩, ?_⟩
  have : (m.map Prod.snd)[i]'(by simpa using hi) = i := by simp only [h.nums, List.getElem_range]
  have k : (m[i]).2 = i := by simpa using this
  have e := findK_some h.nodup (k := (m[i]).1) (v := (m[i]).2) (List.getElem_mem hi)
  simp [num, e, k]

/-- Both ends renumbered. -/
def renum (m : List (Nat × Nat)) (e : Nat × Nat) : Nat × Nat := (num m e.1, num m e.2)

theorem edgeLoop_eq (faces : List (Tri Nat)) (v : Nat) {m : List (Nat × Nat)} (h : LInv m) : ∀ (fis : List Nat) (g : DenseGraph.Graph), (∀ fi ∈ fis, fi < faces.length) →
    (∀ k, End (fis.map (linkEdge faces v)) k → k ∈ m.map Prod.fst) →
    edgeLoop faces v m fis g = DenseGraph.addEdges g ((fis.map (linkEdge faces v)).map (renum m)) := by
  intro fis
  induction fis with
  | nil => intro g _ _; rfl
  | cons fi fis ih =>
    intro g hb hk
    have hfi := hb fi (by simp)
    have hle : linkEdge faces v fi = (nextVertex faces[fi] v, prevVertex faces[fi] v) := by simp [linkEdge, List.getElem?_eq_getElem hfi]
    have k1 := h.num_spec (hk (nextVertex faces[fi] v) ⟨linkEdge faces v fi, by simp, Or.inl (by rw [hle])⟩)
    have k2 := h.num_spec (hk (prevVertex faces[fi] v) ⟨linkEdge faces v fi, by simp, Or.inr (by rw [hle])⟩)
    simp only [edgeLoop, at!, List.getElem?_eq_getElem hfi, ok_bind, atKey, k1.1, k2.1, List.map_cons, DenseGraph.addEdges, hle, renum]
    congr 1
    funext g'
    exact ih g' (fun x hx => hb x (List.mem_cons_of_mem _ hx)) (fun k ⟨e, he, h⟩ => hk k ⟨e, List.mem_cons_of_mem _ he, h⟩)

/-! ### Renumbering does not change the graph -/

section
open Spec.Graph
variable {es : List (Nat × Nat)} {φ : Nat → Nat}

theorem mult_map (hinj : ∀ x y, End es x → End es y → φ x = φ y → x = y) {x y : Nat} (hx : End es x) (hy : End es y) :
    mult (es.map (fun e => (φ e.1, φ e.2))) (φ x) (φ y) = mult es x y := by
  unfold mult
  rw [List.countP_map]
  apply List.countP_congr
  intro e he
  rw [Function.comp, decide_eq_true_iff, decide_eq_true_iff]
  unfold Joins
  obtain ⟨a, b⟩ := e
  have ha : End es a := ⟨_, he, Or.inl rfl⟩
  have hb : End es b := ⟨_, he, Or.inr rfl⟩
  simp only [Prod.mk.injEq]
  constructor
  · rintro (⟨h1, h2⟩ | ⟨h1, h2⟩)
    · exact Or.inl ⟨hinj _ _ ha hx h1, hinj _ _ hb hy h2⟩
    · exact Or.inr ⟨hinj _ _ ha hy h1, hinj _ _ hb hx h2⟩
  · rintro (⟨rfl, rfl⟩ | ⟨rfl, rfl⟩) <;> simp

theorem deg_map (hinj : ∀ x y, End es x → End es y → φ x = φ y → x = y) {x : Nat} (hx : End es x) :
    deg (es.map (fun e => (φ e.1, φ e.2))) (φ x) = deg es x := by
  unfold deg
  rw [List.countP_map]
  apply List.countP_congr
  intro e he
  rw [Function.comp, decide_eq_true_iff, decide_eq_true_iff]
  obtain ⟨a, b⟩ := e
  have ha : End es a := ⟨_, he, Or.inl rfl⟩
  have hb : End es b := ⟨_, he, Or.inr rfl⟩
  constructor
  · rintro (h1 | h1)
    · exact Or.inl (hinj _ _ ha hx h1)
    · exact Or.inr (hinj _ _ hb hx h1)
  · rintro (rfl | rfl) <;> simp

theorem reach_map {x y : Nat} (h : Reach es x y) : Reach (es.map (fun e => (φ e.1, φ e.2))) (φ x) (φ y) := by
  induction h with
  | refl => exact .refl
  | step _ he hj ih =>
    refine .step ih (List.mem_map.2 ⟨_, he, rfl⟩) ?_
    rcases hj with rfl | rfl
    · exact Or.inl rfl
    · exact Or.inr rfl

theorem reach_unmap (hinj : ∀ x y, End es x → End es y → φ x = φ y → x = y) {x : Nat} (hx : End es x) {j : Nat} (h : Reach (es.map (fun e => (φ e.1, φ e.2))) (φ x) j) :
    ∃ y, End es y ∧ φ y = j ∧ Reach es x y := by
  induction h with
  | refl => exact ⟨x, hx, rfl, .refl⟩
  | step _ he hj ih =>
    obtain ⟨y, hy, e1, hr⟩ := ih
    obtain ⟨⟨a, b⟩, hab, rfl⟩ := List.mem_map.1 he
    have ha : End es a := ⟨_, hab, Or.inl rfl⟩
    have hb : End es b := ⟨_, hab, Or.inr rfl⟩
    simp only [Joins, Prod.mk.injEq] at hj
    rcases hj with ⟨h1, h2⟩ | ⟨h1, h2⟩
    · have := hinj _ _ ha hy (h1.trans e1.symm); subst this
      exact ⟨b, hb, h2, .step hr hab (Or.inl rfl)⟩
    · have := hinj _ _ hb hy (h2.trans e1.symm); subst this
      exact ⟨a, ha, h1, .step hr hab (Or.inr rfl)⟩

theorem mult_pos_end {x y : Nat} (h : 0 < mult es x y) : End es x ∧ End es y := by
  unfold mult at h
  rw [List.countP_pos_iff] at h
  obtain ⟨e, he, hj⟩ := h
  simp only [decide_eq_true_eq] at hj
  rcases hj with rfl | rfl
  · exact ⟨⟨_, he, Or.inl rfl⟩, ⟨_, he, Or.inr rfl⟩⟩
  · exact ⟨⟨_, he, Or.inr rfl⟩, ⟨_, he, Or.inl rfl⟩⟩

theorem deg_pos_end {x : Nat} (h : 0 < deg es x) : End es x := by
  unfold deg at h
  rw [List.countP_pos_iff] at h
  obtain ⟨e, he, hj⟩ := h
  simp only [decide_eq_true_eq] at hj
  exact ⟨e, he, hj.imp Eq.symm Eq.symm⟩

theorem end_map {i : Nat} (h : End (es.map (fun e => (φ e.1, φ e.2))) i) : ∃ x, End es x ∧ φ x = i := by
  obtain ⟨e, he, hi⟩ := h
  obtain ⟨e', he', rfl⟩ := List.mem_map.1 he
  rcases hi with hi | hi
  · exact ⟨_, ⟨e', he', Or.inl rfl⟩, hi.symm⟩
  · exact ⟨_, ⟨e', he', Or.inr rfl⟩, hi.symm⟩

theorem simple_map (hinj : ∀ x y, End es x → End es y → φ x = φ y → x = y) : Simple (es.map (fun e => (φ e.1, φ e.2))) ↔ Simple es := by
  constructor
  · rintro ⟨h1, h2⟩
    refine ⟨fun e he heq => h1 _ (List.mem_map.2 ⟨e, he, rfl⟩) (by simp [heq]), fun x y => ?_⟩
    by_cases h : mult es x y = 0
    · omega
    · obtain ⟨hx, hy⟩ := mult_pos_end (by omega : 0 < mult es x y)
      rw [← mult_map hinj hx hy]; exact h2 _ _
  · rintro ⟨h1, h2⟩
    refine ⟨?_, fun i j => ?_⟩
    · intro e he heq
      obtain ⟨e', he', rfl⟩ := List.mem_map.1 he
      exact h1 e' he' (hinj _ _ ⟨e', he', Or.inl rfl⟩ ⟨e', he', Or.inr rfl⟩ heq)
    · by_cases h : mult (es.map (fun e => (φ e.1, φ e.2))) i j = 0
      · omega
      · obtain ⟨hx, hy⟩ := mult_pos_end (by omega : 0 < mult (es.map (fun e => (φ e.1, φ e.2))) i j)
        obtain ⟨x, ex, rfl⟩ := end_map hx
        obtain ⟨y, ey, rfl⟩ := end_map hy
        rw [mult_map hinj ex ey]; exact h2 _ _
end

theorem vertexBad_ok (faces : List (Tri Nat)) (vf : List (List Nat)) (v : Nat) (hv : v < vf.length) (hvf : vf.getD v [] = inc v 0 faces) (hlen : faces.length < 4294967296) :
    ∃ fuel0, ∃ b : Bool, (∀ fuel, fuel0 ≤ fuel → vertexBad fuel faces vf v = ok b) ∧ (b = true ↔ link faces v ≠ [] ∧ ¬ PathOrCycle (link faces v)) := by
  obtain ⟨hl, hb⟩ := inc_link v faces faces 0 (by intro j; simp)
  have hvf' : vf[v] = inc v 0 faces := by simpa [List.getD_eq_getElem?_getD, List.getElem?_eq_getElem hv] using hvf
  cases hi : inc v 0 faces with
  | nil =>
    rw [hi] at hl
    refine ⟨0, false, fun fuel _ => ?_, ?_⟩
    · simp [vertexBad, at!, List.getElem?_eq_getElem hv, hvf', hi]
    · simp [← hl]
  | cons fi0 fis0 =>
    have hne : link faces v ≠ [] := by rw [← hl, hi]; simp
    have hee : (inc v 0 faces).isEmpty = false := by rw [hi]; rfl
    obtain ⟨m, m1, m2, m3⟩ := localLoop_ok faces v (inc v 0 faces) [] ⟨by simp, by simp⟩ hb
    rw [hl] at m3
    simp only [List.map_nil, List.not_mem_nil, false_or] at m3
    have hE := edgeLoop_eq faces v m2 (inc v 0 faces) (DenseGraph.create m.length) hb (fun k hk => (m3 k).2 (by rw [← hl]; exact hk))
    rw [hl] at hE
    have hmap : (link faces v).map (renum m) = (link faces v).map (fun e => (num m e.1, num m e.2)) := rfl
    rw [hmap] at hE
    have hinj : ∀ x y, End (link faces v) x → End (link faces v) y → num m x = num m y → x = y :=
      fun x y hx hy e => m2.num_inj ((m3 x).2 hx) ((m3 y).2 hy) e
    have hes : ∀ e ∈ (link faces v).map (fun e => (num m e.1, num m e.2)), e.1 < m.length ∧ e.2 < m.length := by
      intro e he
      obtain ⟨e', he', rfl⟩ := List.mem_map.1 he
      exact ⟨(m2.num_spec ((m3 _).2 ⟨e', he', Or.inl rfl⟩)).2.1, (m2.num_spec ((m3 _).2 ⟨e', he', Or.inr rfl⟩)).2.1⟩
    have hlen' : ((link faces v).map (fun e => (num m e.1, num m e.2))).length < 4294967296 := by
      rw [List.length_map, ← hl, List.length_map]
      have : ∀ (fs : List (Tri Nat)) k, (inc v k fs).length ≤ fs.length := by
        intro fs
        induction fs with
        | nil => intro k; simp [inc]
        | cons f fs ih =>
          intro k
          have := ih (k + 1)
          rw [inc, List.length_append]
          split <;> simp <;> omega
      exact Nat.lt_of_le_of_lt (this faces 0) hlen
    have hpos : 0 < m.length := by
      obtain ⟨e, he⟩ := List.exists_mem_of_ne_nil _ hne
      have := (m3 e.1).2 ⟨e, he, Or.inl rfl⟩
      rw [List.mem_map] at this
      obtain ⟨x, hx, -⟩ := this
      exact List.length_pos_of_mem hx
    obtain ⟨g, g1, -, -, ⟨bs, s1, s2⟩, ⟨d, d1, d2, d3⟩⟩ := Props.C60_queries m.length _ hes hlen'
    obtain ⟨g', g1', fuel0, bc, c1, c2⟩ := Props.C60_connectivity m.length hpos _ hes hlen'
    rw [g1] at g1'; cases g1'
    have hbase : ∀ fuel, fuel0 ≤ fuel → vertexBad fuel faces vf v = ok (!bs || !bc || decide (2 < d)) := by
      intro fuel hf
      simp only [vertexBad, at!, List.getElem?_eq_getElem hv, ok_bind, hvf', hee, m1, hE, g1, badGraph, s1, connected, c1 fuel hf, d1]
      cases bs <;> cases bc <;> simp
    refine ⟨fuel0, _, hbase, ?_⟩
    rw [simple_map hinj] at s2
    have c2' : bc = true ↔ ∀ x y, End (link faces v) x → End (link faces v) y → Spec.Graph.Reach (link faces v) x y := by
      rw [c2]
      constructor
      · intro h x y hx hy
        obtain ⟨y', ey, e1, hr⟩ := reach_unmap hinj hx (h _ _ (m2.num_spec ((m3 x).2 hx)).2.1 (m2.num_spec ((m3 y).2 hy)).2.1)
        have := hinj _ _ ey hy e1; subst this; exact hr
      · intro h i j hi hj
        obtain ⟨x, hx, rfl⟩ := m2.num_surj hi
        obtain ⟨y, hy, rfl⟩ := m2.num_surj hj
        exact reach_map (h x y ((m3 x).1 hx) ((m3 y).1 hy))
    have d2' : ¬ 2 < d ↔ ∀ x, Spec.Graph.deg (link faces v) x ≤ 2 := by
      constructor
      · intro h x
        by_cases h0 : Spec.Graph.deg (link faces v) x = 0
        · omega
        · have hx := deg_pos_end (by omega : 0 < Spec.Graph.deg (link faces v) x)
          rw [← deg_map hinj hx]
          have := d2 _ (m2.num_spec ((m3 x).2 hx)).2.1
          omega
      · intro h
        rcases d3 with d3 | ⟨i, hi, d3⟩
        · omega
        · obtain ⟨x, hx, rfl⟩ := m2.num_surj hi
          rw [deg_map hinj ((m3 x).1 hx)] at d3
          have := h x
          omega
    unfold PathOrCycle
    rw [← s2, ← c2', ← d2']
    simp only [Bool.or_eq_true, Bool.not_eq_true', decide_eq_true_eq, ne_eq, hne, not_false_eq_true, true_and]
    cases bs <;> cases bc <;> simp

theorem badLoop_ok (faces : List (Tri Nat)) (vf : List (List Nat)) (P : Nat → Prop) : ∀ (vs : List Nat),
    (∀ v ∈ vs, ∃ fuel0, ∃ b : Bool, (∀ fuel, fuel0 ≤ fuel → vertexBad fuel faces vf v = ok b) ∧ (b = true ↔ P v)) →
    ∃ fuel0, ∃ r : List Nat, (∀ fuel vis, fuel0 ≤ fuel → badLoop fuel faces vf vs vis = ok (vis ++ r)) ∧ r.Sublist vs ∧ ∀ v ∈ vs, v ∈ r ↔ P v := by
  intro vs
  induction vs with
  | nil => intro _; exact ⟨0, [], fun _ _ _ => by simp [badLoop], List.Sublist.refl _, by simp⟩
  | cons v vs ih =>
    intro h
    obtain ⟨f1, b, a1, a2⟩ := h v (by simp)
    obtain ⟨f2, r, r1, r2, r3⟩ := ih (fun w hw => h w (List.mem_cons_of_mem _ hw))
    cases b with
    | true =>
      refine ⟨max f1 f2, v :: r, fun fuel vis hf => ?_, r2.cons₂ v, ?_⟩
      · rw [badLoop, a1 fuel (by omega)]
        simp only [ok_bind, if_true]
        rw [r1 fuel _ (by omega)]; simp
      · intro w hw
        have hPv := a2.1 rfl
        rcases List.mem_cons.1 hw with rfl | hw
        · simp [hPv]
        · by_cases e : w = v
          · subst e; simp [hPv]
          · simp [e, r3 w hw]
    | false =>
      refine ⟨max f1 f2, r, fun fuel vis hf => ?_, r2.cons v, ?_⟩
      · rw [badLoop, a1 fuel (by omega)]
        simp only [ok_bind, Bool.false_eq_true, if_false]
        rw [r1 fuel _ (by omega)]
      · intro w hw
        have hPv : ¬ P v := fun h => by have := a2.2 h; cases this
        rcases List.mem_cons.1 hw with rfl | hw
        · by_cases hv : w ∈ vs
          · exact r3 w hv
          · constructor
            · intro hr; exact absurd (r2.subset hr) hv
            · intro hp; exact absurd hp hPv
        · exact r3 w hw

end Kigumi.Defects

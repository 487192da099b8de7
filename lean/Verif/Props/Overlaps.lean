import Verif.Model.Overlaps
import Verif.Proofs.Contact
import Verif.Props.FaceFace
import Verif.Props.Candidates
import Verif.Props.Defects

/-! # C59: overlapping faces -/
namespace Kigumi.Overlaps
open Kigumi Outcome AABB ParallelDo Candidates Spec.Triangles Geo
open Kigumi.Spec (Box)
open Kigumi.Spec.Defects (Collinear Proper3)

/-- The same corners in any order. -/
def Perm3 {α : Type} (t t' : Tri α) : Prop :=
  t' = t ∨ t' = ⟨t.a, t.c, t.b⟩ ∨ t' = ⟨t.c, t.a, t.b⟩ ∨ t' = ⟨t.b, t.a, t.c⟩ ∨ t' = ⟨t.b, t.c, t.a⟩ ∨ t' = ⟨t.c, t.b, t.a⟩

theorem Perm3.symm {α : Type} {t t' : Tri α} (h : Perm3 t t') : Perm3 t' t := by
  obtain ⟨a, b, c⟩ := t
  rcases h with rfl | rfl | rfl | rfl | rfl | rfl <;> simp [Perm3]

theorem sort3_perm (f : Tri Nat) : Perm3 f (sort3 f) := by
  unfold sort3 Perm3
  split
  · split
    · exact Or.inl rfl
    · split
      · exact Or.inr (Or.inl rfl)
      · exact Or.inr (Or.inr (Or.inl rfl))
  · split
    · exact Or.inr (Or.inr (Or.inr (Or.inl rfl)))
    · split
      · exact Or.inr (Or.inr (Or.inr (Or.inr (Or.inl rfl))))
      · exact Or.inr (Or.inr (Or.inr (Or.inr (Or.inr rfl))))

theorem sort3_sorted {f : Tri Nat} (h : Proper3 f) : (sort3 f).a < (sort3 f).b ∧ (sort3 f).b < (sort3 f).c := by
  obtain ⟨h1, h2, h3⟩ := h
  unfold sort3
  split
  · split
    · exact ⟨by omega, by omega⟩
    · split
      · exact ⟨by dsimp only; omega, by dsimp only; omega⟩
      · exact ⟨by dsimp only; omega, by dsimp only; omega⟩
  · split
    · exact ⟨by dsimp only; omega, by dsimp only; omega⟩
    · split
      · exact ⟨by dsimp only; omega, by dsimp only; omega⟩
      · exact ⟨by dsimp only; omega, by dsimp only; omega⟩

theorem mem_setInter : ∀ (l m : List Nat), l.Pairwise (· < ·) → m.Pairwise (· < ·) → (setInter l m).Pairwise (· < ·) ∧ ∀ x, x ∈ setInter l m ↔ x ∈ l ∧ x ∈ m := by
  intro l m
  induction l, m using setInter.induct with
  | case1 => intro _ _; simp [setInter]
  | case2 => intro _ _; simp [setInter]
  | case3 x xs y ys h ih =>
    intro h1 h2
    rw [setInter, if_pos h]
    obtain ⟨i1, i2⟩ := ih h1.of_cons h2
    refine ⟨i1, fun z => ?_⟩
    rw [i2, List.mem_cons (b := x)]
    constructor
    · rintro ⟨u, v⟩; exact ⟨Or.inr u, v⟩
    · rintro ⟨rfl | u, v⟩
      · rcases List.mem_cons.1 v with rfl | v
        · omega
        · have := (List.pairwise_cons.1 h2).1 _ v; omega
      · exact ⟨u, v⟩
  | case4 x xs y ys h h' ih =>
    intro h1 h2
    rw [setInter, if_neg h, if_pos h']
    obtain ⟨i1, i2⟩ := ih h1 h2.of_cons
    refine ⟨i1, fun z => ?_⟩
    rw [i2, List.mem_cons (b := y)]
    constructor
    · rintro ⟨u, v⟩; exact ⟨u, Or.inr v⟩
    · rintro ⟨u, rfl | v⟩
      · rcases List.mem_cons.1 u with rfl | u
        · omega
        · have := (List.pairwise_cons.1 h1).1 _ u; omega
      · exact ⟨u, v⟩
  | case5 x xs y ys h h' ih =>
    intro h1 h2
    have e : x = y := by omega
    subst e
    rw [setInter, if_neg h, if_neg h']
    obtain ⟨i1, i2⟩ := ih h1.of_cons h2.of_cons
    refine ⟨List.pairwise_cons.2 ⟨fun z hz => (List.pairwise_cons.1 h1).1 z ((i2 z).1 hz).1, i1⟩, fun z => ?_⟩
    rw [List.mem_cons, i2, List.mem_cons, List.mem_cons]
    constructor
    · rintro (rfl | ⟨u, v⟩)
      · exact ⟨Or.inl rfl, Or.inl rfl⟩
      · exact ⟨Or.inr u, Or.inr v⟩
    · rintro ⟨rfl | u, v⟩
      · exact Or.inl rfl
      · rcases v with rfl | v
        · exact Or.inl rfl
        · exact Or.inr ⟨u, v⟩

theorem inTriangle_perm {t t' : Tri P3} (h : Perm3 t t') {x : P3} (hx : InTriangle t.a t.b t.c x) : InTriangle t'.a t'.b t'.c x := by
  obtain ⟨u, v, w, hs, rfl, hu, hv, hw⟩ := hx
  rcases h with rfl | rfl | rfl | rfl | rfl | rfl
  · exact ⟨u, v, w, hs, rfl, hu, hv, hw⟩
  · exact ⟨u, w, v, by linarith, by apply FaceFace.p3_ext <;> simp only [combo] <;> ring, hu, hw, hv⟩
  · exact ⟨w, u, v, by linarith, by apply FaceFace.p3_ext <;> simp only [combo] <;> ring, hw, hu, hv⟩
  · exact ⟨v, u, w, by linarith, by apply FaceFace.p3_ext <;> simp only [combo] <;> ring, hv, hu, hw⟩
  · exact ⟨v, w, u, by linarith, by apply FaceFace.p3_ext <;> simp only [combo] <;> ring, hv, hw, hu⟩
  · exact ⟨w, v, u, by linarith, by apply FaceFace.p3_ext <;> simp only [combo] <;> ring, hw, hv, hu⟩

theorem corner_perm {α : Type} {t t' : Tri α} (h : Perm3 t t') {x : α} (hx : x = t.a ∨ x = t.b ∨ x = t.c) : x = t'.a ∨ x = t'.b ∨ x = t'.c := by
  rcases h with rfl | rfl | rfl | rfl | rfl | rfl <;> rcases hx with rfl | rfl | rfl <;> simp

theorem collinear_perm {t t' : Tri P3} (h : Perm3 t t') (hc : Collinear t.a t.b t.c) : Collinear t'.a t'.b t'.c := by
  obtain ⟨p, d, hq⟩ := hc
  refine ⟨p, d, fun q hm => hq q ?_⟩
  have : q = t'.a ∨ q = t'.b ∨ q = t'.c := by simpa using hm
  simpa using corner_perm h.symm this

/-- The triangles overlap. -/
def Meets (t u : Tri P3) : Prop := Overlap t.a t.b t.c u.a u.b u.c

theorem meets_perm {t t' u u' : Tri P3} (h : Perm3 t t') (k : Perm3 u u') (hm : Meets t u) : Meets t' u' := by
  obtain ⟨x, h1, h2, h3⟩ := hm
  refine ⟨x, inTriangle_perm h h1, inTriangle_perm k h2, ?_⟩
  rintro ⟨v, w, sv, sw, hs⟩
  exact h3 ⟨v, w, ⟨corner_perm h.symm sv.1, corner_perm k.symm sv.2⟩, ⟨corner_perm h.symm sw.1, corner_perm k.symm sw.2⟩, hs⟩

theorem Meets.symm {t u : Tri P3} (h : Meets t u) : Meets u t := by
  obtain ⟨x, h1, h2, h3⟩ := h
  refine ⟨x, h2, h1, ?_⟩
  rintro ⟨v, w, sv, sw, hs⟩
  exact h3 ⟨v, w, ⟨sv.2, sv.1⟩, ⟨sw.2, sw.1⟩, hs⟩

/-- The face has these corners. -/
def Denotes (pts : List P3) (f : Tri Nat) (t : Tri P3) : Prop := pts[f.a]? = some t.a ∧ pts[f.b]? = some t.b ∧ pts[f.c]? = some t.c

theorem denotes_perm {pts : List P3} {f f' : Tri Nat} {t : Tri P3} (h : Perm3 f f') (hd : Denotes pts f t) : ∃ t', Perm3 t t' ∧ Denotes pts f' t' := by
  obtain ⟨h1, h2, h3⟩ := hd
  rcases h with rfl | rfl | rfl | rfl | rfl | rfl
  · exact ⟨t, Or.inl rfl, h1, h2, h3⟩
  · exact ⟨_, Or.inr (Or.inl rfl), h1, h3, h2⟩
  · exact ⟨_, Or.inr (Or.inr (Or.inl rfl)), h3, h1, h2⟩
  · exact ⟨_, Or.inr (Or.inr (Or.inr (Or.inl rfl))), h2, h1, h3⟩
  · exact ⟨_, Or.inr (Or.inr (Or.inr (Or.inr (Or.inl rfl)))), h2, h3, h1⟩
  · exact ⟨_, Or.inr (Or.inr (Or.inr (Or.inr (Or.inr rfl)))), h3, h2, h1⟩

/-- The test for two faces with distinct, sorted vertices. -/
theorem test_ok {pts : List P3} (hnd : pts.Nodup) {f g : Tri Nat} {t u : Tri P3} (hf : Denotes pts f t) (hg : Denotes pts g u) (sf : f.a < f.b ∧ f.b < f.c) (sg : g.a < g.b ∧ g.b < g.c)
    (ct : ¬ Collinear t.a t.b t.c) (cu : ¬ Collinear u.a u.b u.c) :
    ∃ inter, FaceFace.intersect pts f.a f.b f.c g.a g.b g.c = ok inter ∧ ((inter ≠ [] ∧ tooMuch inter.length (setInter f.toList g.toList).length = true) ↔ Meets t u) := by
  have T : FaceFace.Two pts f.a f.b f.c g.a g.b g.c t.a t.b t.c u.a u.b u.c := ⟨hf.1, hf.2.1, hf.2.2, hg.1, hg.2.1, hg.2.2, ct, cu⟩
  obtain ⟨ws, e, hperm, -⟩ := FaceFace.intersect_run T
  refine ⟨_, e, ?_⟩
  have hlen : (ws.map FaceFace.codeOf).length = (FaceFace.allHits t.a t.b t.c u.a u.b u.c).length := by rw [List.length_map, hperm.length_eq]
  have pf : f.toList.Pairwise (· < ·) := by simp [Tri.toList]; omega
  have pg : g.toList.Pairwise (· < ·) := by simp [Tri.toList]; omega
  obtain ⟨i1, i2⟩ := mem_setInter _ _ pf pg
  have inj : ∀ {i j : Nat} {x : P3}, pts[i]? = some x → pts[j]? = some x → i = j := by
    intro i j x h1 h2
    obtain ⟨l1, e1⟩ := List.getElem?_eq_some_iff.1 h1
    obtain ⟨l2, e2⟩ := List.getElem?_eq_some_iff.1 h2
    exact (List.Nodup.getElem_inj_iff hnd).1 (e1.trans e2.symm)
  have cor : ∀ {h : Tri Nat} {s : Tri P3}, Denotes pts h s → ∀ x, (x = s.a ∨ x = s.b ∨ x = s.c) ↔ ∃ i ∈ h.toList, pts[i]? = some x := by
    intro h s hd x
    simp only [Tri.toList, List.mem_cons, List.not_mem_nil, or_false]
    constructor
    · rintro (rfl | rfl | rfl)
      · exact ⟨_, Or.inl rfl, hd.1⟩
      · exact ⟨_, Or.inr (Or.inl rfl), hd.2.1⟩
      · exact ⟨_, Or.inr (Or.inr rfl), hd.2.2⟩
    · rintro ⟨i, rfl | rfl | rfl, hx⟩
      · rw [hd.1] at hx; cases hx; exact Or.inl rfl
      · rw [hd.2.1] at hx; cases hx; exact Or.inr (Or.inl rfl)
      · rw [hd.2.2] at hx; cases hx; exact Or.inr (Or.inr rfl)
  have ex : ∀ i ∈ setInter f.toList g.toList, ∃ x, pts[i]? = some x := by
    intro i hi
    have := ((i2 i).1 hi).1
    simp only [Tri.toList, List.mem_cons, List.not_mem_nil, or_false] at this
    rcases this with rfl | rfl | rfl
    · exact ⟨_, hf.1⟩
    · exact ⟨_, hf.2.1⟩
    · exact ⟨_, hf.2.2⟩
  let sh := (setInter f.toList g.toList).map (FaceFace.pt pts)
  have hpt : ∀ {i : Nat} {x : P3}, pts[i]? = some x → FaceFace.pt pts i = x := by
    intro i x h; rw [FaceFace.pt, List.getD_eq_getElem?_getD, h]; rfl
  have hsn : sh.Nodup := by
    refine List.Nodup.map_on ?_ (i1.imp (fun h => Nat.ne_of_lt h))
    intro i hi j hj hij
    obtain ⟨x, hx⟩ := ex i hi
    obtain ⟨y, hy⟩ := ex j hj
    rw [hpt hx, hpt hy] at hij
    subst hij
    exact inj hx hy
  have hsm : ∀ x, x ∈ sh ↔ SharedVertex t.a t.b t.c u.a u.b u.c x := by
    intro x
    unfold SharedVertex
    rw [cor hf, cor hg, List.mem_map]
    constructor
    · rintro ⟨i, hi, rfl⟩
      obtain ⟨x, hx⟩ := ex i hi
      rw [hpt hx]
      exact ⟨⟨i, ((i2 i).1 hi).1, hx⟩, ⟨i, ((i2 i).1 hi).2, hx⟩⟩
    · rintro ⟨⟨i, hi, hx⟩, ⟨j, hj, hy⟩⟩
      have := inj hx hy
      subst this
      exact ⟨i, (i2 i).2 ⟨hi, hj⟩, hpt hx⟩
  have hsl : sh.length = (setInter f.toList g.toList).length := List.length_map _
  obtain ⟨k0, k1, k2, k3⟩ := FaceFace.overlap_count (FaceFace.normal_ne ct) (FaceFace.normal_ne cu) hsn hsm
  rw [← hlen] at k0 k1 k2 k3
  rw [hsl] at k1 k2
  generalize ws.map FaceFace.codeOf = inter at *
  have hne : inter ≠ [] ↔ inter.length ≠ 0 := by rw [ne_eq, ne_eq, List.length_eq_zero_iff]
  rw [hne]
  unfold tooMuch Meets
  rcases Nat.lt_or_ge inter.length 3 with h | h
  · have : inter.length = 0 ∨ inter.length = 1 ∨ inter.length = 2 := by omega
    rcases this with h | h | h
    · simp [h, k0 h]
    · rw [k1 h]; simp [h]
    · rw [k2 h]; simp [h]
  · have h1 : ¬ inter.length = 1 := by omega
    have h2 : ¬ inter.length = 2 := by omega
    simp only [h1, h2, if_false, and_true]
    exact ⟨fun _ => k3 h, fun _ => by omega⟩

/-- The number of the triangle is not among the degenerate ones. -/
def Good (ts : List (Tri P3)) (i : Nat) : Prop := ∃ t, ts[i]? = some t ∧ ¬ Collinear t.a t.b t.c

/-- Two different triangles, neither degenerate, that overlap. -/
def Clash (ts : List (Tri P3)) (i j : Nat) : Prop :=
  ∃ t u, ts[i]? = some t ∧ ts[j]? = some u ∧ ¬ Collinear t.a t.b t.c ∧ ¬ Collinear u.a u.b u.c ∧ Overlap t.a t.b t.c u.a u.b u.c

theorem Clash.symm {ts : List (Tri P3)} {i j : Nat} (h : Clash ts i j) : Clash ts j i := by
  obtain ⟨t, u, h1, h2, h3, h4, h5⟩ := h
  exact ⟨u, t, h2, h1, h4, h3, Meets.symm h5⟩

section
variable {pts : List P3} {faces : List (Tri Nat)} {ts : List (Tri P3)} {deg : List Nat}

/-- What the faces are and which of them are degenerate. -/
structure Setup (pts : List P3) (faces : List (Tri Nat)) (ts : List (Tri P3)) (deg : List Nat) : Prop where
  nodup : pts.Nodup
  den : List.Forall₂ (Denotes pts) faces ts
  deg : ∀ i, i < faces.length → (i ∈ deg ↔ ¬ Good ts i)

theorem Setup.get (S : Setup pts faces ts deg) {i : Nat} (hi : i < faces.length) : ∃ f t, faces[i]? = some f ∧ ts[i]? = some t ∧ Denotes pts f t := by
  have hl := S.den.length_eq
  have := (List.forall₂_iff_get.1 S.den).2 i hi (by omega)
  exact ⟨_, _, List.getElem?_eq_getElem hi, List.getElem?_eq_getElem (by omega), by simpa using this⟩

theorem proper_of {f : Tri Nat} {t : Tri P3} (hd : Denotes pts f t) (h : ¬ Collinear t.a t.b t.c) : Proper3 f := by
  obtain ⟨h1, h2, h3⟩ := hd
  have key : ∀ {x y z : P3}, Collinear x x z ∧ Collinear x z z ∧ Collinear x z x := by
    intro x y z
    have hz : ∀ q, q = x ∨ q = z → ∃ s : ℚ, q = ⟨x.x + s * (z.x - x.x), x.y + s * (z.y - x.y), x.z + s * (z.z - x.z)⟩ := by
      rintro q (rfl | rfl)
      · exact ⟨0, by apply FaceFace.p3_ext <;> simp⟩
      · exact ⟨1, by apply FaceFace.p3_ext <;> simp⟩
    refine ⟨⟨x, ⟨z.x - x.x, z.y - x.y, z.z - x.z⟩, fun q hq => hz q ?_⟩, ⟨x, ⟨z.x - x.x, z.y - x.y, z.z - x.z⟩, fun q hq => hz q ?_⟩, ⟨x, ⟨z.x - x.x, z.y - x.y, z.z - x.z⟩, fun q hq => hz q ?_⟩⟩ <;>
      simp at hq <;> tauto
  refine ⟨fun e => h ?_, fun e => h ?_, fun e => h ?_⟩
  · rw [e, h2] at h1; rw [Option.some.inj h1]; exact (key (y := t.a)).1
  · rw [e, h3] at h2; rw [Option.some.inj h2]; exact (key (y := t.a)).2.1
  · rw [e, h3] at h1; rw [Option.some.inj h1]; exact (key (y := t.a)).2.2

/-- The loop over the leaves finds the first face that overlaps. -/
theorem scan_ok (S : Setup pts faces ts deg) {fi : Nat} (hfi : fi < faces.length) (hg : fi ∉ deg) {f : Tri Nat} (hf : faces[fi]? = some f) : ∀ (l : List Nat), (∀ j ∈ l, j < faces.length) →
    ∃ b : Bool, (∀ acc, scan pts faces deg fi (sort3 f) l acc = ok (acc ++ if b then [fi] else [])) ∧ (b = true ↔ ∃ j ∈ l, fi < j ∧ Clash ts fi j) := by
  obtain ⟨f', t, hf', ht, hd⟩ := S.get hfi
  rw [hf] at hf'; cases hf'
  have gi : Good ts fi := by by_contra hc; exact hg ((S.deg fi hfi).2 hc)
  obtain ⟨t', ht', ct⟩ := gi
  rw [ht] at ht'; cases ht'
  obtain ⟨s, ps, ds⟩ := denotes_perm (sort3_perm f) hd
  have ss := sort3_sorted (proper_of hd ct)
  have cs : ¬ Collinear s.a s.b s.c := fun h => ct (collinear_perm ps.symm h)
  intro l
  induction l with
  | nil => intro _; exact ⟨false, fun acc => by simp [scan], by simp⟩
  | cons j l ih =>
    intro hl
    obtain ⟨b, e1, e2⟩ := ih (fun k hk => hl k (List.mem_cons_of_mem _ hk))
    have hj := hl j List.mem_cons_self
    by_cases hskip : j ≤ fi ∨ j ∈ deg
    · refine ⟨b, fun acc => ?_, ?_⟩
      · rw [scan, if_pos hskip, e1]
      · rw [e2]
        constructor
        · rintro ⟨k, hk, h⟩; exact ⟨k, List.mem_cons_of_mem _ hk, h⟩
        · rintro ⟨k, hk, hlt, h⟩
          rcases List.mem_cons.1 hk with rfl | hk
          · rcases hskip with h' | h'
            · omega
            · obtain ⟨_, u, _, hu, _, cu, _⟩ := h
              exact absurd ⟨u, hu, cu⟩ ((S.deg _ hj).1 h')
          · exact ⟨k, hk, hlt, h⟩
    · push Not at hskip
      obtain ⟨g, u, hgj, hu, du⟩ := S.get hj
      have gj : Good ts j := by by_contra hc; exact hskip.2 ((S.deg j hj).2 hc)
      obtain ⟨u', hu', cu⟩ := gj
      rw [hu] at hu'; cases hu'
      obtain ⟨v, pv, dv⟩ := denotes_perm (sort3_perm g) du
      have cv : ¬ Collinear v.a v.b v.c := fun h => cu (collinear_perm pv.symm h)
      obtain ⟨inter, ei, hi⟩ := test_ok S.nodup ds dv ss (sort3_sorted (proper_of du cu)) cs cv
      have hcl : Clash ts fi j ↔ Meets s v := by
        constructor
        · rintro ⟨t1, u1, h1, h2, -, -, h5⟩
          rw [ht] at h1; cases h1
          rw [hu] at h2; cases h2
          exact meets_perm ps pv h5
        · intro h
          exact ⟨t, u, ht, hu, ct, cu, meets_perm ps.symm pv.symm h⟩
      have hs : ∀ acc, scan pts faces deg fi (sort3 f) (j :: l) acc =
          if inter.isEmpty then scan pts faces deg fi (sort3 f) l acc
          else if tooMuch inter.length (setInter (sort3 f).toList (sort3 g).toList).length then ok (acc ++ [fi])
          else scan pts faces deg fi (sort3 f) l acc := by
        intro acc
        rw [scan, if_neg (by push Not; exact hskip), at!_ok.2 hgj]
        simp only [Outcome.bind, ei]
      by_cases hm : Meets s v
      · obtain ⟨m1, m2⟩ := hi.2 hm
        refine ⟨true, fun acc => ?_, ?_⟩
        · rw [hs, if_neg (by simpa using m1), if_pos m2]; simp
        · exact ⟨fun _ => ⟨j, List.mem_cons_self, hskip.1, hcl.2 hm⟩, fun _ => rfl⟩
      · refine ⟨b, fun acc => ?_, ?_⟩
        · rw [hs, e1]
          by_cases h1 : inter = []
          · rw [if_pos (by simp [h1])]
          · rw [if_neg (by simpa using h1), if_neg (fun h2 => hm (hi.1 ⟨h1, h2⟩))]
        · rw [e2]
          constructor
          · rintro ⟨k, hk, h⟩; exact ⟨k, List.mem_cons_of_mem _ hk, h⟩
          · rintro ⟨k, hk, hlt, h⟩
            rcases List.mem_cons.1 hk with rfl | hk
            · exact absurd (hcl.1 h) hm
            · exact ⟨k, hk, hlt, h⟩
end

theorem pointsOf_eq (pts : List P3) : pointsOf pts = pts := by
  have key : ∀ (ps : List P3) (l : PointList P3), l.check = false → (l.insertAll ps).1.points = l.points ++ ps := by
    intro ps
    induction ps with
    | nil => intro l _; simp [PointList.insertAll]
    | cons p ps ih =>
      intro l hl
      have hi : l.insert p = (⟨l.points ++ [p], l.map, l.check⟩, l.points.length) := by unfold PointList.insert; simp [hl]
      simp only [PointList.insertAll, hi]
      rw [ih ⟨l.points ++ [p], l.map, l.check⟩ hl]; simp
  have := key pts PointList.fresh rfl
  simpa [pointsOf, PointList.fresh] using this

/-- The faces found by a query of the tree. -/
theorem query_faces (arr : Nat → List (Nat × Box) → List (Nat × Box)) (harr : ∀ k l, (arr k l).Perm l) (limit : Nat) (nodes : Nat → Node (Option Box)) (dflt : Nat × Box) (boxes : List Box)
    {mem : Mem (Nat × Box) (Option Box)} (hm : Prog.Exec (construct boxOps arr limit (leavesOf boxes).length) (initial nodes (leavesOf boxes) dflt) .skip mem) (q : Box) :
    ∃ ps, query boxOps mem boxes.length q = ok ps ∧ ∀ i, i ∈ ps.map (fun p => (mem.leaves p).1) ↔ ∃ B, boxes[i]? = some B ∧ overlap B q = true := by
  have := Props.C20_query_exact boxOps (by
    intro b c q h
    cases b with
    | none => cases h
    | some b => cases c with
      | none => exact h
      | some c => exact overlap_join_left h) (by
    intro b c q h
    cases c with
    | none => cases h
    | some c => cases b with
      | none => exact h
      | some b => exact overlap_join_right h) arr harr limit nodes (leavesOf boxes) dflt hm q
  rw [leaves_len] at this
  obtain ⟨ps, h1, -, -, h4⟩ := this
  refine ⟨ps, h1, fun i => ?_⟩
  have h5 := h4.map Prod.fst
  rw [List.map_map] at h5
  rw [show (fun p => (mem.leaves p).1) = Prod.fst ∘ mem.leaves from rfl, h5.mem_iff, List.mem_map]
  constructor
  · rintro ⟨⟨i', B⟩, hB, rfl⟩
    rw [List.mem_filter] at hB
    exact ⟨B, mem_leaves.1 hB.1, hB.2⟩
  · rintro ⟨B, hB, ho⟩
    exact ⟨(i, B), List.mem_filter.2 ⟨mem_leaves.2 hB, ho⟩, rfl⟩

theorem hull_iff {t : Tri P3} {x : P3} : Props.InHull t x ↔ InTriangle t.a t.b t.c x := by
  constructor
  · rintro ⟨u, v, w, hu, hv, hw, hs, e⟩; exact ⟨u, v, w, hs, e, hu, hv, hw⟩
  · rintro ⟨u, v, w, hs, e, hu, hv, hw⟩; exact ⟨u, v, w, hu, hv, hw, hs, e⟩

end Kigumi.Overlaps

namespace Kigumi.Props
open Kigumi Outcome AABB ParallelDo Candidates Overlaps Defects Spec.Triangles Geo
open Kigumi.Spec (Box)
open Kigumi.Spec.Defects (Collinear Proper3)

/-- **Overlapping faces of a soup with distinct vertices.** Whatever the schedules, the thread counts and the layout of the tree, `overlapping_faces`, called with the lists of degenerate faces of the same soup,
returns normally; its result has exactly the faces that overlap a face with a larger number, each once. -/
theorem C59_faces (arr : Nat → List (Nat × Box) → List (Nat × Box)) (harr : ∀ k l, (arr k l).Perm l) (limit configured hardware : Nat) (hc : 1 ≤ configured) (nodes : Nat → Node (Option Box)) (dflt : Nat × Box)
    (pts : List P3) (hnd : pts.Nodup) (faces : List (Tri Nat)) (ts : List (Tri P3)) (hden : List.Forall₂ (Denotes pts) faces ts)
    (treeBoxes queryBoxes : List Box) (e1 : Encloses treeBoxes ts) (e2 : Encloses queryBoxes ts)
    {d : Result String (List Nat)} (hd : ParallelDo.Returns (degenerateLoop pts faces) configured hardware [] d)
    {r : Result String (List Nat)} (h : Overlaps.Returns arr limit configured hardware nodes dflt pts faces (trivialLoop 0 faces []) d.acc treeBoxes queryBoxes r) :
    r.exc = none ∧ r.acc.Nodup ∧ ∀ i, i ∈ r.acc ↔ ∃ j, i < j ∧ Clash ts i j := by
  have hl := hden.length_eq
  have hfv : ∀ f ∈ faces, ∀ v ∈ f.toList, v < pts.length := by
    intro f hf v hv
    obtain ⟨i, hi, rfl⟩ := List.getElem_of_mem hf
    have := (List.forall₂_iff_get.1 hden).2 i hi (by omega)
    simp only [Tri.toList, List.mem_cons, List.not_mem_nil, or_false] at hv
    obtain ⟨a1, a2, a3⟩ := this
    simp only [List.get_eq_getElem] at a1 a2 a3
    rcases hv with rfl | rfl | rfl
    · exact (List.getElem?_eq_some_iff.1 a1).1
    · exact (List.getElem?_eq_some_iff.1 a2).1
    · exact (List.getElem?_eq_some_iff.1 a3).1
  obtain ⟨-, -, d3⟩ := C58_nonTrivial pts faces hfv hc hd
  have t3 := (C58_trivial faces).2
  have S : Setup pts faces ts (trivialLoop 0 faces [] ++ d.acc) := by
    refine ⟨hnd, hden, fun i hi => ?_⟩
    have hget := (List.forall₂_iff_get.1 hden).2 i hi (by omega)
    have g1 := List.getElem?_eq_getElem hi
    have g2 : ts[i]? = some ts[i] := List.getElem?_eq_getElem (by omega)
    simp only [List.get_eq_getElem] at hget
    rw [List.mem_append, t3, d3]
    constructor
    · rintro (⟨f, hf, hp⟩ | ⟨f, a, b, c, hf, -, ha, hb, hc', hcol⟩) ⟨t, ht, ct⟩
      · rw [g1] at hf; cases hf
        rw [g2] at ht; cases ht
        exact hp (proper_of hget ct)
      · rw [g1] at hf; cases hf
        rw [g2] at ht; cases ht
        rw [hget.1] at ha; rw [hget.2.1] at hb; rw [hget.2.2] at hc'
        cases ha; cases hb; cases hc'
        exact ct hcol
    · intro hng
      by_cases hp : Proper3 faces[i]
      · right
        refine ⟨_, _, _, _, g1, hp, hget.1, hget.2.1, hget.2.2, ?_⟩
        by_contra hcol
        exact hng ⟨_, g2, hcol⟩
      · exact Or.inl ⟨_, g1, hp⟩
  obtain ⟨mem, hm, hr⟩ := h
  have htl : treeBoxes.length = faces.length := by rw [e1.1, hl]
  have hql : queryBoxes.length = faces.length := by rw [e2.1, hl]
  have corner : ∀ t : Tri P3, InHull t t.a := fun t => ⟨1, 0, 0, by norm_num, by norm_num, by norm_num, by norm_num, by simp⟩
  have hbody : ∀ i, i < faces.length → ∃ b : Bool, (∀ s, Overlaps.body pts faces (trivialLoop 0 faces [] ++ d.acc) mem queryBoxes i s = ok (s ++ if b then [i] else [])) ∧
      (b = true ↔ ∃ j, i < j ∧ Clash ts i j) := by
    intro i hi
    by_cases hdeg : i ∈ trivialLoop 0 faces [] ++ d.acc
    · refine ⟨false, fun s => by unfold Overlaps.body; rw [if_pos hdeg]; simp, ?_⟩
      simp only [Bool.false_eq_true, false_iff]
      rintro ⟨j, -, t, u, ht, -, ct, -⟩
      exact (S.deg i hi).1 hdeg ⟨t, ht, ct⟩
    · obtain ⟨ps, q1, q2⟩ := query_faces arr harr limit nodes dflt treeBoxes hm (queryBoxes[i]'(by omega))
      rw [htl] at q1
      obtain ⟨b, s1, s2⟩ := scan_ok S hi hdeg (List.getElem?_eq_getElem hi) (ps.map (fun p => (mem.leaves p).1)) (by
        intro j hj
        obtain ⟨B, hB, -⟩ := (q2 j).1 hj
        rw [← htl]; exact (List.getElem?_eq_some_iff.1 hB).1)
      refine ⟨b, fun s => ?_, ?_⟩
      · unfold Overlaps.body
        rw [if_neg hdeg, at!_ok.2 (List.getElem?_eq_getElem (by omega : i < queryBoxes.length))]
        simp only [Outcome.bind, q1, at!_ok.2 (List.getElem?_eq_getElem hi), s1]
      · rw [s2]
        constructor
        · rintro ⟨j, -, h⟩; exact ⟨j, h⟩
        · rintro ⟨j, hlt, h⟩
          refine ⟨j, (q2 j).2 ?_, hlt, h⟩
          obtain ⟨t, u, ht, hu, -, -, x, x1, x2, -⟩ := h
          have hj : j < ts.length := (List.getElem?_eq_some_iff.1 hu).1
          have hB : treeBoxes[j]? = some (treeBoxes[j]'(by rw [e1.1]; exact hj)) := List.getElem?_eq_getElem _
          have hQ : queryBoxes[i]? = some (queryBoxes[i]'(by omega)) := List.getElem?_eq_getElem _
          have m1 := e1.2 j u _ hu hB x (hull_iff.2 x2)
          have m2 := e2.2 i t _ ht hQ x (hull_iff.2 x1)
          exact ⟨_, hB, (overlap_iff ⟨_, m1⟩ ⟨_, m2⟩).2 ⟨x, m1, m2⟩⟩
  choose! out ho1 ho2 using hbody
  obtain ⟨g1, g2⟩ := collect_of (Overlaps.loop pts faces (trivialLoop 0 faces []) d.acc mem queryBoxes) (fun i => if out i then [i] else []) rfl
    (by intro i s hi; simp only [Overlaps.loop, pointsOf_eq, ho1 i hi, toExcept]) rfl (by intro g s; cases g <;> rfl) hc hr
  rw [List.nil_append] at g2
  refine ⟨g1, ?_, fun i => ?_⟩
  · rw [g2.nodup_iff]
    show ((List.range faces.length).flatMap _).Nodup
    rw [List.nodup_flatMap]
    refine ⟨fun i _ => by by_cases h : out i = true <;> simp [h], List.nodup_range.pairwise_of_forall_ne ?_⟩
    intro i _ j _ hne x hx hy
    have k : ∀ {i x : Nat}, (x ∈ if out i = true then [i] else []) → x = i := by
      intro i x h; split at h
      · simpa using h
      · simp at h
    exact hne ((k hx).symm.trans (k hy))
  · rw [g2.mem_iff, List.mem_flatMap]
    constructor
    · rintro ⟨k, hk, h⟩
      have hk : k < faces.length := List.mem_range.1 hk
      split at h
      · rename_i hb
        have : i = k := by simpa using h
        subst this
        exact (ho2 i hk).1 hb
      · simp at h
    · intro h
      have hi : i < faces.length := by
        obtain ⟨j, -, t, u, ht, -⟩ := h
        have := (List.getElem?_eq_some_iff.1 ht).1
        omega
      refine ⟨i, List.mem_range.2 hi, ?_⟩
      rw [if_pos ((ho2 i hi).2 h)]; simp

/-- **C59.** For every soup with valid faces: after merging its vertices, the search for degenerate faces and the search for overlapping ones, the list is empty exactly when no two faces (with corners `ts`) that are not degenerate meet outside their
shared vertices and shared edge; every listed face takes part in such a contact; no face is listed twice. -/
theorem C59_overlaps (arr : Nat → List (Nat × Box) → List (Nat × Box)) (harr : ∀ k l, (arr k l).Perm l) (limit configured hardware : Nat) (hc : 1 ≤ configured) (nodes : Nat → Node (Option Box)) (dflt : Nat × Box)
    (pts0 : List P3) (faces0 : List (Tri Nat)) (ts : List (Tri P3)) (hden : List.Forall₂ (Denotes pts0) faces0 ts)
    (pts : List P3) (faces : List (Tri Nat)) (hmerge : merge pts0 faces0 = ok (pts, faces))
    (treeBoxes queryBoxes : List Box) (e1 : Encloses treeBoxes ts) (e2 : Encloses queryBoxes ts)
    {d : Result String (List Nat)} (hd : ParallelDo.Returns (degenerateLoop pts faces) configured hardware [] d)
    {r : Result String (List Nat)} (h : Overlaps.Returns arr limit configured hardware nodes dflt pts faces (trivialLoop 0 faces []) d.acc treeBoxes queryBoxes r) :
    r.exc = none ∧ (r.acc ≠ [] ↔ ∃ i j, i ≠ j ∧ Clash ts i j) ∧ (∀ i ∈ r.acc, ∃ j, j ≠ i ∧ Clash ts i j) ∧ r.acc.Nodup := by
  have hl := hden.length_eq
  have hfv : ∀ f ∈ faces0, ∀ v ∈ f.toList, v < pts0.length := by
    intro f hf v hv
    obtain ⟨i, hi, rfl⟩ := List.getElem_of_mem hf
    have := (List.forall₂_iff_get.1 hden).2 i hi (by omega)
    simp only [Tri.toList, List.mem_cons, List.not_mem_nil, or_false] at hv
    obtain ⟨a1, a2, a3⟩ := this
    simp only [List.get_eq_getElem] at a1 a2 a3
    rcases hv with rfl | rfl | rfl
    · exact (List.getElem?_eq_some_iff.1 a1).1
    · exact (List.getElem?_eq_some_iff.1 a2).1
    · exact (List.getElem?_eq_some_iff.1 a3).1
  obtain ⟨pts', faces', m0, m1, -, m3, m4⟩ := C54_merge pts0 faces0 hfv
  rw [hmerge] at m0; cases m0
  have hden' : List.Forall₂ (Denotes pts) faces ts := by
    rw [List.forall₂_iff_get]
    refine ⟨by omega, fun i h1 h2 => ?_⟩
    have h0 : i < faces0.length := by omega
    have a := (List.forall₂_iff_get.1 hden).2 i h0 h2
    have b := m4 i _ _ (List.getElem?_eq_getElem h0) (List.getElem?_eq_getElem h1)
    simp only [Tri.map, Tri.mk.injEq] at b
    simp only [List.get_eq_getElem] at a ⊢
    exact ⟨b.1.trans a.1, b.2.1.trans a.2.1, b.2.2.trans a.2.2⟩
  obtain ⟨r1, r2, r3⟩ := C59_faces arr harr limit configured hardware hc nodes dflt pts m1 faces ts hden' treeBoxes queryBoxes e1 e2 hd h
  refine ⟨r1, ?_, ?_, r2⟩
  · constructor
    · intro hne
      obtain ⟨i, hi⟩ := List.exists_mem_of_ne_nil _ hne
      obtain ⟨j, hlt, hcl⟩ := (r3 i).1 hi
      exact ⟨i, j, by omega, hcl⟩
    · rintro ⟨i, j, hne, hcl⟩
      rcases Nat.lt_or_gt_of_ne hne with hlt | hlt
      · exact List.ne_nil_of_mem ((r3 i).2 ⟨j, hlt, hcl⟩)
      · exact List.ne_nil_of_mem ((r3 j).2 ⟨i, hlt, hcl.symm⟩)
  · intro i hi
    obtain ⟨j, hlt, hcl⟩ := (r3 i).1 hi
    exact ⟨j, by omega, hcl⟩

/-- Two triangles that pierce each other overlap: a corner of the intersection is not a vertex of both. -/
example : Overlap ⟨0, 0, 0⟩ ⟨4, 0, 0⟩ ⟨0, 4, 0⟩ ⟨1, 1, -1⟩ ⟨1, 1, 1⟩ ⟨5, 5, 0⟩ := by
  refine ⟨⟨1, 1, 0⟩, ⟨1 / 2, 1 / 4, 1 / 4, by norm_num, by norm_num [combo], by norm_num, by norm_num, by norm_num⟩, ⟨1 / 2, 1 / 2, 0, by norm_num, by norm_num [combo], by norm_num, by norm_num, by norm_num⟩, ?_⟩
  rintro ⟨u, v, ⟨h1, h2⟩, -⟩
  rcases h1 with rfl | rfl | rfl <;> revert h2 <;> decide

/-- Triangles with a common edge do not, by the test: two corners, two shared vertices. -/
example : FaceFace.intersect [⟨0, 0, 0⟩, ⟨1, 0, 0⟩, ⟨0, 1, 0⟩, ⟨0, 0, 1⟩] 0 1 2 0 1 3 = ok [9, 18] ∧ tooMuch [9, 18].length (setInter [0, 1, 2] [0, 1, 3]).length = false := by decide +kernel

/-- One pass over the leaves: the face 0 with a neighbour, then with a face that pierces it. -/
example : scan [⟨0, 0, 0⟩, ⟨4, 0, 0⟩, ⟨0, 4, 0⟩, ⟨1, 1, -1⟩, ⟨1, 1, 1⟩, ⟨5, 5, 0⟩] [⟨2, 0, 1⟩, ⟨0, 1, 3⟩, ⟨5, 3, 4⟩] [] 0 (sort3 ⟨2, 0, 1⟩) [1, 0, 2] [] = ok [0] ∧
    scan [⟨0, 0, 0⟩, ⟨4, 0, 0⟩, ⟨0, 4, 0⟩, ⟨1, 1, -1⟩, ⟨1, 1, 1⟩, ⟨5, 5, 0⟩] [⟨2, 0, 1⟩, ⟨0, 1, 3⟩, ⟨5, 3, 4⟩] [2] 0 (sort3 ⟨2, 0, 1⟩) [1, 0, 2] [] = ok [] := by decide +kernel

/-- A box around everything below. -/
def bigBox : Box := ⟨⟨-9, -9, -9⟩, ⟨9, 9, 9⟩⟩

/-- The two triangles that pierce each other, with a vertex stored twice, and a degenerate face: the whole chain runs and lists a face. -/
example : ∃ pts faces d r, merge [⟨0, 0, 0⟩, ⟨4, 0, 0⟩, ⟨0, 4, 0⟩, ⟨1, 1, -1⟩, ⟨1, 1, 1⟩, ⟨5, 5, 0⟩, ⟨4, 0, 0⟩] [⟨0, 1, 2⟩, ⟨3, 4, 5⟩, ⟨0, 6, 1⟩] = ok (pts, faces) ∧
    ParallelDo.Returns (degenerateLoop pts faces) 2 4 [] d ∧
    Overlaps.Returns (fun _ l => l) 2 2 4 (fun _ => ⟨none, .null, .null⟩) (0, bigBox) pts faces (trivialLoop 0 faces []) d.acc [bigBox, bigBox, bigBox] [bigBox, bigBox, bigBox] r ∧ r.acc ≠ [] := by
  have hm : merge [⟨0, 0, 0⟩, ⟨4, 0, 0⟩, ⟨0, 4, 0⟩, ⟨1, 1, -1⟩, ⟨1, 1, 1⟩, ⟨5, 5, 0⟩, ⟨4, 0, 0⟩] [⟨0, 1, 2⟩, ⟨3, 4, 5⟩, ⟨0, 6, 1⟩] =
      ok ([(⟨0, 0, 0⟩ : P3), ⟨4, 0, 0⟩, ⟨0, 4, 0⟩, ⟨1, 1, -1⟩, ⟨1, 1, 1⟩, ⟨5, 5, 0⟩], [⟨0, 1, 2⟩, ⟨3, 4, 5⟩, ⟨0, 1, 1⟩]) := by decide +kernel
  obtain ⟨mem, hmem⟩ := Prog.exec_complete (construct boxOps (fun _ l => l) 2 (leavesOf [bigBox, bigBox, bigBox]).length) (initial (fun _ => ⟨none, .null, .null⟩) (leavesOf [bigBox, bigBox, bigBox]) (0, bigBox))
  obtain ⟨d, hd⟩ := C15_has_result (degenerateLoop [(⟨0, 0, 0⟩ : P3), ⟨4, 0, 0⟩, ⟨0, 4, 0⟩, ⟨1, 1, -1⟩, ⟨1, 1, 1⟩, ⟨5, 5, 0⟩] [⟨0, 1, 2⟩, ⟨3, 4, 5⟩, ⟨0, 1, 1⟩]) 2 4 []
  obtain ⟨r, hr⟩ := C15_has_result (Overlaps.loop [(⟨0, 0, 0⟩ : P3), ⟨4, 0, 0⟩, ⟨0, 4, 0⟩, ⟨1, 1, -1⟩, ⟨1, 1, 1⟩, ⟨5, 5, 0⟩] [⟨0, 1, 2⟩, ⟨3, 4, 5⟩, ⟨0, 1, 1⟩] (trivialLoop 0 [⟨0, 1, 2⟩, ⟨3, 4, 5⟩, ⟨0, 1, 1⟩] []) d.acc mem [bigBox, bigBox, bigBox]) 2 4 []
  have hret : Overlaps.Returns (fun _ l => l) 2 2 4 (fun _ => ⟨none, .null, .null⟩) (0, bigBox) [(⟨0, 0, 0⟩ : P3), ⟨4, 0, 0⟩, ⟨0, 4, 0⟩, ⟨1, 1, -1⟩, ⟨1, 1, 1⟩, ⟨5, 5, 0⟩] [⟨0, 1, 2⟩, ⟨3, 4, 5⟩, ⟨0, 1, 1⟩]
      (trivialLoop 0 [⟨0, 1, 2⟩, ⟨3, 4, 5⟩, ⟨0, 1, 1⟩] []) d.acc [bigBox, bigBox, bigBox] [bigBox, bigBox, bigBox] r := ⟨mem, hmem, hr⟩
  refine ⟨_, _, d, r, hm, hd, hret, ?_⟩
  let ts : List (Tri P3) := [⟨⟨0, 0, 0⟩, ⟨4, 0, 0⟩, ⟨0, 4, 0⟩⟩, ⟨⟨1, 1, -1⟩, ⟨1, 1, 1⟩, ⟨5, 5, 0⟩⟩, ⟨⟨0, 0, 0⟩, ⟨4, 0, 0⟩, ⟨4, 0, 0⟩⟩]
  have henc : Encloses [bigBox, bigBox, bigBox] ts := by
    refine ⟨rfl, fun i t b ht hb p hp => ?_⟩
    have hb : b = bigBox := by have := List.mem_of_getElem? hb; simpa using this
    subst hb
    have hj : faceBox ⟨bigBox, bigBox, bigBox⟩ = bigBox := by simp [faceBox, bigBox, Box.join]
    rw [← hj]
    have hmem := List.mem_of_getElem? ht
    refine C32_faceBox t ⟨bigBox, bigBox, bigBox⟩ ?_ ?_ ?_ p hp <;> simp [ts] at hmem <;> rcases hmem with rfl | rfl | rfl <;> norm_num [bigBox, Box.Mem]
  have hden : List.Forall₂ (Denotes [⟨0, 0, 0⟩, ⟨4, 0, 0⟩, ⟨0, 4, 0⟩, ⟨1, 1, -1⟩, ⟨1, 1, 1⟩, ⟨5, 5, 0⟩, ⟨4, 0, 0⟩]) [⟨0, 1, 2⟩, ⟨3, 4, 5⟩, ⟨0, 6, 1⟩] ts :=
    .cons ⟨rfl, rfl, rfl⟩ (.cons ⟨rfl, rfl, rfl⟩ (.cons ⟨rfl, rfl, rfl⟩ .nil))
  obtain ⟨-, h2, -⟩ := C59_overlaps _ (fun _ l => List.Perm.refl l) 2 2 4 (by decide) _ _ _ _ ts hden _ _ hm _ _ henc henc hd hret
  rw [h2]
  refine ⟨0, 1, by decide, _, _, rfl, rfl, by rw [← collinear_iff]; decide +kernel, by rw [← collinear_iff]; decide +kernel, ?_⟩
  refine ⟨⟨1, 1, 0⟩, ⟨1 / 2, 1 / 4, 1 / 4, by norm_num, by norm_num [combo], by norm_num, by norm_num, by norm_num⟩, ⟨1 / 2, 1 / 2, 0, by norm_num, by norm_num [combo], by norm_num, by norm_num, by norm_num⟩, ?_⟩
  rintro ⟨u, v, ⟨h1, h2⟩, -⟩
  rcases h1 with rfl | rfl | rfl <;> revert h2 <;> decide

end Kigumi.Props

import Verif.Proofs.SideGeometry
import Verif.Model.Side
import Verif.Spec.Arrangement

/-! # One round of the search for the side of a point, declaratively -/
namespace Kigumi.Side
open Kigumi Outcome Geo Spec.Triangles Spec.Side FaceFace
variable {D : Type}

theorem corners_of {soup : Soup P3 D} {ts : List (Tri P3)} (h : Spec.HasCorners soup.points soup.faces ts) {i : Nat} {t : Tri P3} (ht : ts[i]? = some t) : corners soup i = ok t := by
  unfold Spec.HasCorners at h
  have hlen := h.length_eq
  have hi : i < ts.length := by by_contra hge; rw [List.getElem?_eq_none (by omega)] at ht; cases ht
  have hg := List.Forall₂.get h (i := i) (by omega) hi
  rw [List.getElem?_eq_getElem hi] at ht
  cases ht
  obtain ⟨ha, hb, hc⟩ := hg
  unfold corners
  have e1 : at! soup.faces i = ok soup.faces[i] := at!_ok.2 (List.getElem?_eq_getElem (by omega))
  have e2 := at!_ok.2 ha; have e3 := at!_ok.2 hb; have e4 := at!_ok.2 hc
  simp only [List.get_eq_getElem] at e2 e3 e4
  rw [e1, ok_bind, e2, ok_bind, e3, ok_bind, e4, ok_bind]

theorem onRay_start (p q : P3) : OnRay p q p := ⟨0, le_refl _, p3_ext (by simp) (by simp) (by simp)⟩

/-- The start of a ray is not between two of its points. -/
theorem ray_start_end {p q x y : P3} (hx : OnRay p q x) (hy : OnRay p q y) (hxy : x ≠ y) (h : OnSegment x y p) : x = p ∨ y = p := by
  obtain ⟨s, hs, rfl⟩ := hx
  obtain ⟨t, ht, rfl⟩ := hy
  obtain ⟨u, v, huv, hu, hv, e⟩ := h
  by_cases hpq : p = q
  · left; rw [hpq]; apply p3_ext <;> simp
  have ex := congrArg Spec.P3.x e; have ey := congrArg Spec.P3.y e; have ez := congrArg Spec.P3.z e
  simp only at ex ey ez
  have k : u * s + v * t = 0 := by
    by_contra hne
    apply hpq
    have c : ∀ a b : ℚ, a = u * (a + s * (b - a)) + v * (a + t * (b - a)) → a = b := by
      intro a b h
      have : (u * s + v * t) * (b - a) = 0 := by linear_combination - h - a * huv
      rcases mul_eq_zero.1 this with h | h
      · exact absurd h hne
      · linarith
    exact p3_ext (c _ _ ex) (c _ _ ey) (c _ _ ez)
  have k1 := mul_nonneg hu hs; have k2 := mul_nonneg hv ht
  have z1 : u * s = 0 := by linarith
  have z2 : v * t = 0 := by linarith
  rcases mul_eq_zero.1 z1 with h | h
  · have hv1 : v = 1 := by linarith
    rw [hv1, one_mul] at z2
    right; rw [z2]; apply p3_ext <;> simp
  · left; rw [h]; apply p3_ext <;> simp

/-- The result of a valid intersection shows whether the ray starts on the triangle. -/
theorem describes_start {t : Tri P3} {p q : P3} {h : Hit} (hd : h.Describes (fun x => In t x ∧ OnRay p q x)) :
    In t p ↔ match h with | .none => False | .point x => x = p | .segment x y => x = p ∨ y = p := by
  have hp := onRay_start p q
  cases h with
  | none => simp only [Hit.Describes] at hd; simp only [iff_false]; exact fun h => hd p ⟨h, hp⟩
  | point x =>
    simp only [Hit.Describes] at hd
    constructor
    · intro h; exact ((hd p).1 ⟨h, hp⟩).symm
    · intro h; have := ((hd x).2 rfl).1; rwa [h] at this
  | segment x y =>
    simp only [Hit.Describes] at hd
    obtain ⟨hxy, hd⟩ := hd
    constructor
    · intro h
      exact ray_start_end ((hd x).2 (left_end _ _)).2 ((hd y).2 (right_end _ _)).2 hxy ((hd p).1 ⟨h, hp⟩)
    · rintro (rfl | rfl)
      · exact ((hd x).2 (left_end _ _)).1
      · exact ((hd y).2 (right_end _ _)).1

/-- The ray meets triangle number `i` in the point `x` only. -/
def HitAt (ts : List (Tri P3)) (p q : P3) (i : Nat) (x : P3) : Prop := ∃ t, ts[i]? = some t ∧ ∀ z, (In t z ∧ OnRay p q z) ↔ z = x

theorem hitAt_unique {ts : List (Tri P3)} {p q : P3} {i : Nat} {x y : P3} (hx : HitAt ts p q i x) (hy : HitAt ts p q i y) : x = y := by
  obtain ⟨t, ht, h1⟩ := hx
  obtain ⟨t', ht', h2⟩ := hy
  rw [ht] at ht'; cases ht'
  exact (h2 x).1 ((h1 x).2 rfl)

/-- What the loop appends. -/
def record (E : Env) (ts : List (Tri P3)) (p q : P3) (i : Nat) : Option (ℚ × Nat) :=
  match ts[i]? with
  | none => none
  | some t => match E.inter t.a t.b t.c p q with
    | .point x => some (dist2 p x, i)
    | _ => none

section
variable {E : Env} {ts : List (Tri P3)} {soup : Soup P3 D} {p q : P3}

theorem record_iff (hE : E.Valid ts) (hpq : p ≠ q) {i : Nat} {r : ℚ × Nat} : record E ts p q i = some r ↔ ∃ x, HitAt ts p q i x ∧ r = (dist2 p x, i) := by
  unfold record
  cases ht : ts[i]? with
  | none =>
    simp only [reduceCtorEq, false_iff]
    rintro ⟨x, ⟨t, ht', _⟩, _⟩
    rw [ht] at ht'; cases ht'
  | some t =>
    have hd := hE.inter t (List.mem_of_getElem? ht) p q hpq
    dsimp only
    generalize E.inter t.a t.b t.c p q = h at hd
    cases h with
    | none =>
      simp only [reduceCtorEq, false_iff]
      rintro ⟨x, ⟨t', ht', h⟩, _⟩
      rw [ht] at ht'; cases ht'
      exact hd x ((h x).2 rfl)
    | point y =>
      simp only [Option.some.injEq]
      constructor
      · rintro rfl; exact ⟨y, ⟨t, ht, hd⟩, rfl⟩
      · rintro ⟨x, hx, rfl⟩
        rw [hitAt_unique hx ⟨t, ht, hd⟩]
    | segment y z =>
      simp only [reduceCtorEq, false_iff]
      rintro ⟨x, ⟨t', ht', h⟩, _⟩
      rw [ht] at ht'; cases ht'
      obtain ⟨hyz, hd⟩ := hd
      exact hyz (((h y).1 ((hd y).2 (left_end _ _))).trans ((h z).1 ((hd z).2 (right_end _ _))).symm)

/-- The loop over the leaves. -/
theorem scan_eq (hE : E.Valid ts) (hc : Spec.HasCorners soup.points soup.faces ts) (hpq : p ≠ q) (fis : List Nat) (acc : List (ℚ × Nat)) (hr : ∀ i ∈ fis, i < ts.length) :
    ((∃ i ∈ fis, ∃ t, ts[i]? = some t ∧ In t p) → scan E soup p q fis acc = ok none) ∧
    ((∀ i ∈ fis, ∀ t, ts[i]? = some t → ¬ In t p) → scan E soup p q fis acc = ok (some (acc ++ fis.filterMap (record E ts p q)))) := by
  induction fis generalizing acc with
  | nil => simp [scan]
  | cons i fis ih =>
    have hi := hr i List.mem_cons_self
    have ht : ts[i]? = some ts[i] := List.getElem?_eq_getElem hi
    generalize ts[i] = t at ht
    have hd := hE.inter t (List.mem_of_getElem? ht) p q hpq
    have hs := describes_start hd
    have ih' := fun acc => ih acc (fun j hj => hr j (List.mem_cons_of_mem _ hj))
    have hrec : record E ts p q i = match E.inter t.a t.b t.c p q with | .point x => some (dist2 p x, i) | _ => none := by unfold record; rw [ht]
    have split1 : (∃ j ∈ i :: fis, ∃ u, ts[j]? = some u ∧ In u p) ↔ In t p ∨ ∃ j ∈ fis, ∃ u, ts[j]? = some u ∧ In u p := by
      constructor
      · rintro ⟨j, hj, u, hu, hin⟩
        rcases List.mem_cons.1 hj with rfl | hj
        · rw [ht] at hu; cases hu; exact Or.inl hin
        · exact Or.inr ⟨j, hj, u, hu, hin⟩
      · rintro (h | ⟨j, hj, u, hu, hin⟩)
        · exact ⟨i, List.mem_cons_self, t, ht, h⟩
        · exact ⟨j, List.mem_cons_of_mem _ hj, u, hu, hin⟩
    have split2 : (∀ j ∈ i :: fis, ∀ u, ts[j]? = some u → ¬ In u p) → ¬ In t p ∧ ∀ j ∈ fis, ∀ u, ts[j]? = some u → ¬ In u p :=
      fun h => ⟨h i List.mem_cons_self t ht, fun j hj => h j (List.mem_cons_of_mem _ hj)⟩
    have hcor := corners_of hc ht
    have unfold1 : scan E soup p q (i :: fis) acc = match E.inter t.a t.b t.c p q with
        | .none => scan E soup p q fis acc
        | .point x => if x = p then ok none else scan E soup p q fis (acc ++ [(dist2 p x, i)])
        | .segment x y => if x = p ∨ y = p then ok none else scan E soup p q fis acc := by
      rw [scan, hcor]; rfl
    rw [unfold1, split1, List.filterMap_cons, hrec]
    clear unfold1 hrec
    revert hs hd
    generalize E.inter t.a t.b t.c p q = h
    intro hd hs
    cases h with
    | none =>
      dsimp only at hs ⊢
      refine ⟨fun h => (ih' acc).1 (h.resolve_left (fun h => hs.1 h)), fun h => (ih' acc).2 (split2 h).2⟩
    | point x =>
      dsimp only at hs ⊢
      by_cases hxp : x = p
      · rw [if_pos hxp]
        exact ⟨fun _ => rfl, fun h => absurd (hs.2 hxp) (split2 h).1⟩
      · rw [if_neg hxp]
        refine ⟨fun h => (ih' _).1 (h.resolve_left (fun h => hxp (hs.1 h))), fun h => ?_⟩
        rw [(ih' _).2 (split2 h).2, List.append_assoc]; rfl
    | segment x y =>
      dsimp only at hs ⊢
      by_cases hxp : x = p ∨ y = p
      · rw [if_pos hxp]
        exact ⟨fun _ => rfl, fun h => absurd (hs.2 hxp) (split2 h).1⟩
      · rw [if_neg hxp]
        exact ⟨fun h => (ih' acc).1 (h.resolve_left (fun h => hxp (hs.1 h))), fun h => (ih' acc).2 (split2 h).2⟩

end

/-- What one round does. -/
inductive Round (ts : List (Tri P3)) (p q : P3) : Outcome (Option Oriented) → Prop
  | start (h : p = q) : Round ts p q (ok (some .boundary))
  | surface (h : p ≠ q) (hs : Surface ts p) : Round ts p q (ok (some .boundary))
  | nothing (h : p ≠ q) (hs : ¬ Surface ts p) (hn : ∀ i x, ¬ HitAt ts p q i x) : Round ts p q (exn "cannot determine the side of the point")
  | tie (h : p ≠ q) (hs : ¬ Surface ts p) (i j : Nat) (x y : P3) (hij : i ≠ j) (hi : HitAt ts p q i x) (hj : HitAt ts p q j y) (hxy : dist2 p x = dist2 p y)
      (hmin : ∀ k z, HitAt ts p q k z → dist2 p x ≤ dist2 p z) : Round ts p q (ok none)
  | nearest (h : p ≠ q) (hs : ¬ Surface ts p) (i : Nat) (x : P3) (t : Tri P3) (hi : HitAt ts p q i x) (ht : ts[i]? = some t)
      (hmin : ∀ k z, HitAt ts p q k z → k ≠ i → dist2 p x < dist2 p z) : Round ts p q (ok (some (.of (sgn (det4 t.a t.b t.c p)))))

/-- There is one answer. -/
theorem round_unique {ts : List (Tri P3)} {p q : P3} {r r' : Outcome (Option Oriented)} (h : Round ts p q r) (h' : Round ts p q r') : r = r' := by
  cases h with
  | start h => cases h' <;> first | rfl | contradiction
  | surface h hs => cases h' <;> first | rfl | contradiction
  | nothing h hs hn =>
    cases h' with
    | start h' => contradiction
    | surface h' hs' => contradiction
    | nothing => rfl
    | tie _ _ i j x y hij hi => exact absurd hi (hn _ _)
    | nearest _ _ i x t hi => exact absurd hi (hn _ _)
  | tie h hs i j x y hij hi hj hxy hmin =>
    cases h' with
    | start h' => contradiction
    | surface h' hs' => contradiction
    | nothing _ _ hn => exact absurd hi (hn _ _)
    | tie => rfl
    | nearest _ _ k z t hk ht hmin' =>
      have l1 := hmin k z hk
      by_cases hik : i = k
      · have l2 := hmin' j y hj (by omega)
        linarith
      · have l2 := hmin' i x hi hik
        linarith
  | nearest h hs i x t hi ht hmin =>
    cases h' with
    | start h' => contradiction
    | surface h' hs' => contradiction
    | nothing _ _ hn => exact absurd hi (hn _ _)
    | tie _ _ k l z y hkl hk hl hzy hmin' =>
      have l1 := hmin' i x hi
      by_cases hik : k = i
      · have l2 := hmin l y hl (by omega)
        linarith
      · have l2 := hmin k z hk hik
        linarith
    | nearest _ _ k z t' hk ht' hmin' =>
      by_cases hik : k = i
      · subst hik; rw [ht] at ht'; cases ht'; rfl
      · have l1 := hmin k z hk hik
        have l2 := hmin' i x hi (fun h => hik h.symm)
        linarith

/-- The target of a round. -/
def target (t : Tri P3) : P3 := centroid t.a t.b t.c

/-- **One round, declaratively.** -/
theorem attempt_round {E : Env} {ts : List (Tri P3)} {soup : Soup P3 D} (hE : E.Valid ts) (hc : Spec.HasCorners soup.points soup.faces ts) (p : P3) {i : Nat} {t : Tri P3} (ht : ts[i]? = some t) :
    Round ts p (target t) (attempt E soup p i) := by
  have unfold1 : attempt E soup p i = if p = target t then ok (some .boundary) else (E.leaves p (target t)).bind (fun fis => (scan E soup p (target t) fis []).bind (fun r =>
      match r with
      | none => ok (some .boundary)
      | some [] => exn "cannot determine the side of the point"
      | some [(_, fi)] => (corners soup fi).bind fun t => ok (some (.of (sgn (det4 t.a t.b t.c p))))
      | some l => (at! (E.partialSort l) 0).bind fun x => (at! (E.partialSort l) 1).bind fun y =>
        if x.1 = y.1 then ok none else (corners soup x.2).bind fun t => ok (some (.of (sgn (det4 t.a t.b t.c p)))))) := by
    unfold attempt; rw [corners_of hc ht]; rfl
  rw [unfold1]
  by_cases hpq : p = target t
  · rw [if_pos hpq]; exact .start hpq
  rw [if_neg hpq]
  generalize target t = q at hpq
  obtain ⟨fis, hfis, hnd, hrange, hfound⟩ := hE.leaves p q hpq
  rw [hfis]
  change Round ts p q ((scan E soup p q fis []).bind _)
  obtain ⟨s1, s2⟩ := scan_eq hE hc hpq fis [] hrange
  by_cases hs : Surface ts p
  · obtain ⟨u, hu, hin⟩ := hs
    obtain ⟨j, hj⟩ := List.getElem?_of_mem hu
    rw [s1 ⟨j, hfound j u p hj hin (onRay_start p q), u, hj, hin⟩]
    exact .surface hpq ⟨u, hu, hin⟩
  rw [s2 (fun j _ u hu hin => hs ⟨u, List.mem_of_getElem? hu, hin⟩), List.nil_append]
  -- the records are the hits
  generalize hl : fis.filterMap (record E ts p q) = l
  have mem : ∀ r, r ∈ l ↔ ∃ j x, HitAt ts p q j x ∧ r = (dist2 p x, j) := by
    intro r
    rw [← hl, List.mem_filterMap]
    constructor
    · rintro ⟨j, _, hr⟩
      obtain ⟨x, hx, e⟩ := (record_iff hE hpq).1 hr
      exact ⟨j, x, hx, e⟩
    · rintro ⟨j, x, hx, e⟩
      obtain ⟨u, hu, hz⟩ := hx
      have hxx := (hz x).2 rfl
      exact ⟨j, hfound j u x hu hxx.1 hxx.2, (record_iff hE hpq).2 ⟨x, ⟨u, hu, hz⟩, e⟩⟩
  have nodup : (l.map Prod.snd).Nodup := by
    have hsub : (l.map Prod.snd).Sublist fis := by
      rw [← hl]
      clear hl s1 s2 hfis hnd hrange hfound
      induction fis with
      | nil => simp
      | cons j fis ih =>
        rw [List.filterMap_cons]
        cases hr : record E ts p q j with
        | none => exact ih.cons _
        | some r =>
          obtain ⟨x, _, e⟩ := (record_iff hE hpq).1 hr
          rw [e]; exact ih.cons_cons _
    exact hsub.nodup hnd
  have corner : ∀ j x, HitAt ts p q j x → ∃ u, ts[j]? = some u ∧ corners soup j = ok u := fun j x ⟨u, hu, _⟩ => ⟨u, hu, corners_of hc hu⟩
  clear hl s1 s2
  match l, mem, nodup with
  | [], mem, _ => exact .nothing hpq hs (fun j x hx => by simpa using (mem (dist2 p x, j)).2 ⟨j, x, hx, rfl⟩)
  | [(d, j)], mem, _ =>
    obtain ⟨j', x, hx, e⟩ := (mem (d, j)).1 (by simp)
    simp only [Prod.mk.injEq] at e
    obtain ⟨rfl, rfl⟩ := e
    obtain ⟨u, hu, hcu⟩ := corner j x hx
    show Round ts p q ((corners soup j).bind fun t => ok (some (.of (sgn (det4 t.a t.b t.c p)))))
    rw [hcu]
    refine .nearest hpq hs j x u hx hu (fun k z hz hk => ?_)
    have := (mem (dist2 p z, k)).2 ⟨k, z, hz, rfl⟩
    simp only [List.mem_cons, Prod.mk.injEq, List.not_mem_nil, or_false] at this
    exact absurd this.2 hk
  | r1 :: r2 :: rest, mem, nodup =>
    generalize hl : r1 :: r2 :: rest = l at mem nodup
    have hperm := hE.perm l
    have hlen : (E.partialSort l).length = rest.length + 2 := by rw [hperm.length_eq, ← hl]; simp
    have hsorted := hE.sorted l
    have nodup' : ((E.partialSort l).map Prod.snd).Nodup := (hperm.map Prod.snd).nodup_iff.2 nodup
    have mem' : ∀ r, r ∈ E.partialSort l ↔ ∃ j x, HitAt ts p q j x ∧ r = (dist2 p x, j) := fun r => by rw [hperm.mem_iff, mem]
    have goal : Round ts p q ((at! (E.partialSort l) 0).bind fun x => (at! (E.partialSort l) 1).bind fun y =>
        if x.1 = y.1 then ok none else (corners soup x.2).bind fun t => ok (some (.of (sgn (det4 t.a t.b t.c p))))) := by
      generalize E.partialSort l = m at *
      match m, hlen, hsorted, nodup', mem' with
      | a :: b :: m', _, hsorted, nodup', mem' =>
        obtain ⟨hab, hrest⟩ := hsorted a b m' rfl
        obtain ⟨j, x, hx, ea⟩ := (mem' a).1 (by simp)
        obtain ⟨k, y, hy, eb⟩ := (mem' b).1 (by simp)
        have hjk : j ≠ k := by
          rintro rfl
          simp [ea, eb] at nodup'
        show Round ts p q (if a.1 = b.1 then ok none else (corners soup a.2).bind fun t => ok (some (.of (sgn (det4 t.a t.b t.c p)))))
        subst ea; subst eb
        dsimp only at hab hrest ⊢
        by_cases heq : dist2 p x = dist2 p y
        · rw [if_pos heq]
          refine .tie hpq hs j k x y hjk hx hy heq (fun i z hz => ?_)
          have := (mem' (dist2 p z, i)).2 ⟨i, z, hz, rfl⟩
          simp only [List.mem_cons] at this
          rcases this with h | h | h
          · rw [Prod.mk.injEq] at h; rw [h.1]
          · rw [Prod.mk.injEq] at h; rw [h.1]; exact hab
          · exact hab.trans (hrest _ h)
        · rw [if_neg heq]
          obtain ⟨u, hu, hcu⟩ := corner j x hx
          rw [hcu]
          have hlt := lt_of_le_of_ne hab heq
          refine .nearest hpq hs j x u hx hu (fun i z hz hi => ?_)
          have := (mem' (dist2 p z, i)).2 ⟨i, z, hz, rfl⟩
          simp only [List.mem_cons] at this
          rcases this with h | h | h
          · rw [Prod.mk.injEq] at h; exact absurd h.2 hi
          · rw [Prod.mk.injEq] at h; rw [h.1]; exact hlt
          · exact lt_of_lt_of_le hlt (hrest _ h)
    rw [← hl] at goal
    obtain ⟨d1, j1⟩ := r1
    rw [← hl]
    exact goal

/-- All rounds, declaratively. -/
inductive Rounds (ts : List (Tri P3)) (p : P3) : List (Tri P3) → Outcome Oriented → Prop
  | done : Rounds ts p [] (exn "cannot determine the side of the point")
  | found (t : Tri P3) (l : List (Tri P3)) (s : Oriented) (h : Round ts p (target t) (ok (some s))) : Rounds ts p (t :: l) (ok s)
  | failed (t : Tri P3) (l : List (Tri P3)) (m : String) (h : Round ts p (target t) (exn m)) : Rounds ts p (t :: l) (exn m)
  | next (t : Tri P3) (l : List (Tri P3)) (r : Outcome Oriented) (h : Round ts p (target t) (ok none)) (hr : Rounds ts p l r) : Rounds ts p (t :: l) r

theorem rounds_unique {ts : List (Tri P3)} {p : P3} {l : List (Tri P3)} {r r' : Outcome Oriented} (h : Rounds ts p l r) (h' : Rounds ts p l r') : r = r' := by
  induction h with
  | done => cases h'; rfl
  | found t l s h => cases h' with
    | found _ _ _ k => have := round_unique h k; cases this; rfl
    | failed _ _ _ k => have := round_unique h k; cases this
    | next _ _ _ k => have := round_unique h k; cases this
  | failed t l m h => cases h' with
    | found _ _ _ k => have := round_unique h k; cases this
    | failed _ _ _ k => have := round_unique h k; cases this; rfl
    | next _ _ _ k => have := round_unique h k; cases this
  | next t l r h hr ih => cases h' with
    | found _ _ _ k => have := round_unique h k; cases this
    | failed _ _ _ k => have := round_unique h k; cases this
    | next _ _ _ k k' => exact ih k'

theorem round_not_ub {ts : List (Tri P3)} {p q : P3} {w : String} (h : Round ts p q (ub w)) : False := by cases h

theorem attempts_rounds {E : Env} {ts : List (Tri P3)} {soup : Soup P3 D} (hE : E.Valid ts) (hc : Spec.HasCorners soup.points soup.faces ts) (p : P3) (is : List Nat) (l : List (Tri P3))
    (h : List.Forall₂ (fun i t => ts[i]? = some t) is l) : Rounds ts p l (attempts E soup p is) := by
  induction h with
  | nil => exact .done
  | @cons i t is l hit _ ih =>
    have hr := attempt_round hE hc p hit
    have e : attempts E soup p (i :: is) = (attempt E soup p i).bind (fun r => match r with | some s => ok s | none => attempts E soup p is) := rfl
    rw [e]
    cases ha : attempt E soup p i with
    | ok r =>
      rw [ha] at hr
      cases r with
      | none => exact .next _ _ _ hr ih
      | some s => exact .found _ _ _ hr
    | exn m => rw [ha] at hr; exact .failed _ _ _ hr
    | ub w => rw [ha] at hr; exact (round_not_ub hr).elim

theorem range_get {α : Type} (l : List α) : List.Forall₂ (fun i t => l[i]? = some t) (List.range l.length) l := by
  rw [List.forall₂_iff_get]
  refine ⟨by simp, fun i h1 h2 => ?_⟩
  simp [List.getElem?_eq_getElem h2]

/-- **The search, declaratively.** -/
theorem sideOf_rounds {E : Env} {ts : List (Tri P3)} {soup : Soup P3 D} (hE : E.Valid ts) (hc : Spec.HasCorners soup.points soup.faces ts) (hne : soup.faces ≠ []) (p : P3) :
    Rounds ts p ts (sideOf E soup p) := by
  unfold sideOf
  have hlen : soup.faces.length = ts.length := List.Forall₂.length_eq hc
  rw [if_neg (by intro h; exact hne (List.length_eq_zero_iff.1 h)), hlen]
  exact attempts_rounds hE hc p _ _ (range_get ts)

theorem rounds_ok {ts : List (Tri P3)} {p : P3} {l : List (Tri P3)} {s : Oriented} (h : Rounds ts p l (ok s)) : ∃ t ∈ l, Round ts p (target t) (ok (some s)) := by
  generalize hr : ok s = r at h
  induction h with
  | done => cases hr
  | found t l s' h => cases hr; exact ⟨t, List.mem_cons_self, h⟩
  | failed => cases hr
  | next t l r h hr' ih =>
    obtain ⟨u, hu, h'⟩ := ih hr
    exact ⟨u, List.mem_cons_of_mem _ hu, h'⟩

/-! ## What the nearest hit means -/

theorem ray_of_segment {p q x z : P3} (hx : OnRay p q x) (hz : OnSegment p x z) : OnRay p q z := by
  obtain ⟨s, hs, rfl⟩ := hx
  obtain ⟨u, v, huv, hu, hv, rfl⟩ := hz
  refine ⟨v * s, by positivity, ?_⟩
  have hu1 : u = 1 - v := by linarith
  subst hu1
  apply p3_ext <;> simp only [] <;> ring

theorem dist_of_segment {p x z : P3} (hz : OnSegment p x z) : dist2 p z ≤ dist2 p x := by
  obtain ⟨u, v, huv, hu, hv, rfl⟩ := hz
  have hu1 : u = 1 - v := by linarith
  subst hu1
  have e : dist2 p ⟨(1 - v) * p.x + v * x.x, (1 - v) * p.y + v * x.y, (1 - v) * p.z + v * x.z⟩ = v * v * dist2 p x := by simp only [dist2, dot, sub]; ring
  rw [e]
  have h0 : 0 ≤ dist2 p x := by unfold dist2 dot; nlinarith [mul_self_nonneg (sub x p).x, mul_self_nonneg (sub x p).y, mul_self_nonneg (sub x p).z]
  have hv1 : v * v ≤ 1 := by nlinarith
  nlinarith

theorem eval_ray (f : Aff) (p q : P3) (s : ℚ) : f.eval ⟨p.x + s * (q.x - p.x), p.y + s * (q.y - p.y), p.z + s * (q.z - p.z)⟩ = f.eval p + s * (f.eval q - f.eval p) := by
  simp only [Aff.eval, dot]; ring

/-- A triangle that meets the ray in two points has the ray in its plane. -/
theorem plane_of_two {u : Tri P3} {p q y z : P3} (hyz : y ≠ z) (hy : In u y) (hz : In u z) (ry : OnRay p q y) (rz : OnRay p q z) : ∀ x, OnRay p q x → (plane u).eval x = 0 := by
  obtain ⟨s, _, rfl⟩ := ry
  obtain ⟨t, _, rfl⟩ := rz
  have e1 := plane_in hy; have e2 := plane_in hz
  rw [eval_ray] at e1 e2
  have hst : s - t ≠ 0 := by
    intro h; apply hyz
    have : s = t := by linarith
    rw [this]
  have e3 : (s - t) * ((plane u).eval q - (plane u).eval p) = 0 := by linear_combination e1 - e2
  have e4 := (mul_eq_zero.1 e3).resolve_left hst
  rw [e4] at e1
  rintro x ⟨r, _, rfl⟩
  rw [eval_ray, e4]; linarith

/-- The other triangles at the nearest hit. -/
theorem others_of_nearest {ts : List (Tri P3)} {p q : P3} {i : Nat} {x : P3} (hi : HitAt ts p q i x) (hmin : ∀ k z, HitAt ts p q k z → k ≠ i → dist2 p x < dist2 p z) :
    ∀ j u, ts[j]? = some u → j ≠ i → (∀ y, OnSegment p x y → ¬ In u y) ∨ ((plane u).eval p = 0 ∧ (plane u).eval x = 0) := by
  intro j u hu hji
  have rx : OnRay p q x := by obtain ⟨t, _, h⟩ := hi; exact ((h x).2 rfl).2
  by_cases hm : ∀ y, OnSegment p x y → ¬ In u y
  · exact Or.inl hm
  right
  push Not at hm
  obtain ⟨y, hy, hin⟩ := hm
  have ry := ray_of_segment rx hy
  by_cases hz : ∃ z, z ≠ y ∧ In u z ∧ OnRay p q z
  · obtain ⟨z, hzy, hz, rz⟩ := hz
    have := plane_of_two hzy hz hin rz ry
    exact ⟨this p (onRay_start p q), this x rx⟩
  · push Not at hz
    have hit : HitAt ts p q j y := ⟨u, hu, fun z => ⟨fun h => by by_contra hne; exact hz z hne h.1 h.2, fun h => by rw [h]; exact ⟨hin, ry⟩⟩⟩
    have := hmin j y hit hji
    have := dist_of_segment hy
    linarith

theorem of_sgn_negative {v : ℚ} : Oriented.of (sgn v) = .negative ↔ v < 0 := by
  unfold Oriented.of
  rw [← sgn_neg]
  split
  · simp [*]
  · split <;> simp [*]
theorem of_sgn_boundary {v : ℚ} : Oriented.of (sgn v) = .boundary ↔ v = 0 := by
  unfold Oriented.of
  rw [← sgn_zero]
  split
  · simp; omega
  · split <;> simp [*]
theorem of_sgn_positive {v : ℚ} : Oriented.of (sgn v) = .positive ↔ 0 < v := by
  unfold Oriented.of
  rw [← sgn_pos]
  split
  · simp; omega
  · split
    · simp; omega
    · simp; omega

end Kigumi.Side

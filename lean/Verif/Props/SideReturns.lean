import Verif.Props.Solid
import Verif.Proofs.ClosedSurface
import Verif.Proofs.Beams
import Verif.Spec.Rays

/-! # When the side of a point is found -/
namespace Kigumi.Props
open Kigumi Outcome Geo Side Spec.Triangles Spec.Side FaceFace Space
variable {D : Type}

theorem target_middle (t : Tri P3) : target t = middle t := rfl

theorem rounds_exn {ts : List (Tri P3)} {p : P3} {l : List (Tri P3)} {m : String} (h : Rounds ts p l (exn m)) (hn : ∀ t ∈ l, ∀ m, ¬ Round ts p (target t) (exn m)) : m = "cannot determine the side of the point" ∧ ∀ t ∈ l, Round ts p (target t) (ok none) := by
  generalize hr : exn m = r at h
  induction h with
  | done => cases hr; simp
  | found => cases hr
  | failed t l m' h => exact absurd h (hn t (by simp) m')
  | next t l r h _ ih =>
    obtain ⟨h1, h2⟩ := ih (fun t ht => hn t (by simp [ht])) hr
    refine ⟨h1, fun u hu => ?_⟩
    rcases List.mem_cons.1 hu with rfl | hu
    · exact h
    · exact h2 u hu

theorem rounds_tied {ts : List (Tri P3)} {p : P3} {l : List (Tri P3)} (h : ∀ t ∈ l, Round ts p (target t) (ok none)) : Rounds ts p l (exn "cannot determine the side of the point") := by
  induction l with
  | nil => exact .done
  | cons t l ih => exact .next t l _ (h t (by simp)) (ih fun u hu => h u (by simp [hu]))

theorem hitAt_meets {ts : List (Tri P3)} {p q : P3} {i : Nat} {x : P3} (h : HitAt ts p q i x) : MeetsAt ts p q i (dist2 p x) := by
  obtain ⟨t, ht, hx⟩ := h
  exact ⟨t, x, ht, hx, rfl⟩

theorem meets_hitAt {ts : List (Tri P3)} {p q : P3} {i : Nat} {d : ℚ} (h : MeetsAt ts p q i d) : ∃ x, HitAt ts p q i x ∧ d = dist2 p x := by
  obtain ⟨t, x, ht, hx, hd⟩ := h
  exact ⟨x, ⟨t, ht, hx⟩, hd⟩

theorem round_tied {ts : List (Tri P3)} {p q : P3} (hpq : p ≠ q) (hp : ¬ Surface ts p) : Round ts p q (ok none) ↔ Tied ts p q := by
  constructor
  · intro h
    cases h with
    | tie _ _ i j x y hij hi hj hxy hmin =>
      refine ⟨i, j, dist2 p x, hij, hitAt_meets hi, hxy ▸ hitAt_meets hj, fun k d' hk => ?_⟩
      obtain ⟨z, hz, rfl⟩ := meets_hitAt hk
      exact hmin k z hz
  · rintro ⟨i, j, d, hij, hi, hj, hmin⟩
    obtain ⟨x, hx, rfl⟩ := meets_hitAt hi
    obtain ⟨y, hy, e⟩ := meets_hitAt hj
    exact .tie hpq hp i j x y hij hx hy e fun k z hz => hmin k _ (hitAt_meets hz)

theorem target_ne {ts : List (Tri P3)} {p : P3} (hp : ¬ Surface ts p) {t : Tri P3} (ht : t ∈ ts) : p ≠ target t := by
  rintro rfl
  exact hp ⟨t, ht, centroid_in t⟩

theorem boundedSide_exn {E : Env} {r : Region P3 D} {p : P3} (hk : r.kind = .boundaryDefined) {m : String} : boundedSide E r p = exn m ↔ sideOf E r.boundary p = exn m := by
  rw [boundedSide_eq hk]
  cases hs : sideOf E r.boundary p with
  | ok s => cases s <;> simp [Outcome.bind]
  | exn m' => simp [Outcome.bind]
  | ub w => simp [Outcome.bind]

/-- **When the side of a point cannot be determined.** For every solid and every point off its surface, `bounded_side` fails exactly if, for every triangle, the ray through its centroid meets two triangles at the same time, before it meets any other
in a single point; the error is always the same. -/
theorem C75_throws_iff {E : Env} {r : Region P3 D} {ts : List (Tri P3)} {χ : P3 → Prop} (hk : r.kind = .boundaryDefined) (h : IsSolid r ts χ) (hE : E.Valid ts) {p : P3} (hp : ¬ Surface ts p) (m : String) :
    boundedSide E r p = exn m ↔ m = "cannot determine the side of the point" ∧ ∀ t ∈ ts, Tied ts p (middle t) := by
  have hne : r.boundary.faces ≠ [] := by have := h.inv; unfold Spec.RegionInv at this; rwa [hk] at this
  have hrs := sideOf_rounds hE h.corners hne p
  have hn : ∀ t ∈ ts, ∀ m, ¬ Round ts p (target t) (exn m) := by
    intro t ht m hr
    cases hr with
    | nothing hpq _ hno =>
      obtain ⟨i, x, hx⟩ := single_hit h.complex h.once h.bounds hpq ⟨t, ht, centroid_in t⟩
      exact hno i x hx
  rw [boundedSide_exn hk]
  constructor
  · intro e
    rw [e] at hrs
    obtain ⟨h1, h2⟩ := rounds_exn hrs hn
    exact ⟨h1, fun t ht => (round_tied (target_ne hp ht) hp).1 (h2 t ht)⟩
  · rintro ⟨rfl, ht⟩
    exact rounds_unique hrs (rounds_tied fun t h' => (round_tied (target_ne hp h') hp).2 (ht t h'))

/-- A visible centroid is met first, by one triangle only. -/
theorem visible_not_tied {ts : List (Tri P3)} (hc : Complex ts) (ho : Once ts) {p : P3} (hp : ¬ Surface ts p) {t : Tri P3} (ht : t ∈ ts) (hv : Visible ts p (middle t)) : ¬ Tied ts p (middle t) := by
  rw [← target_middle] at hv ⊢
  have hpq := target_ne hp ht
  obtain ⟨n, hn⟩ := List.mem_iff_getElem?.1 ht
  have hin : Inner t (target t) := by
    have : target t = centre t := by apply p3_ext <;> simp only [target, centroid, centre, combo] <;> ring
    rw [this]; exact inner_centre t
  have q1 : rayPt p (target t) 1 = target t := by apply p3_ext <;> simp only [rayPt] <;> ring
  -- the triangle is met in its centroid only
  have hhit : HitAt ts p (target t) n (target t) := by
    refine ⟨t, hn, fun z => ⟨?_, ?_⟩⟩
    · rintro ⟨hz, s, hs, rfl⟩
      change In t (rayPt p (target t) s) at hz
      show rayPt p (target t) s = target t
      by_contra hne
      have hs1 : s ≠ 1 := by rintro rfl; exact hne q1
      have before : ∀ r, 0 ≤ r → r < 1 → ¬ In t (rayPt p (target t) r) := by
        intro r h0 h1 hr
        have := hv (rayPt p (target t) r) ⟨1 - r, r, by ring, by linarith, h0, by apply p3_ext <;> simp only [rayPt] <;> ring⟩ ⟨t, ht, hr⟩
        rw [← q1] at this
        have h2 : r = 1 := rayPt_inj hpq (by rwa [q1] at this ⊢)
        linarith
      rcases lt_or_gt_of_ne hs1 with h | h
      · exact before s hs h hz
      · obtain ⟨w0, w1, w2, hw, ew, p0, p1, p2⟩ := hin
        obtain ⟨v0, v1, v2, hv', ev, -⟩ := hz
        have pos : ∀ {w : ℚ}, Weight true w → 0 < w := fun h => h
        obtain ⟨e0, l0, k0⟩ := go_on (v := v0) (pos p0).le fun e => absurd e (pos p0).ne'
        obtain ⟨e1, l1, k1⟩ := go_on (v := v1) (pos p1).le fun e => absurd e (pos p1).ne'
        obtain ⟨e2, l2, k2⟩ := go_on (v := v2) (pos p2).le fun e => absurd e (pos p2).ne'
        have hsp : 0 < s - 1 := by linarith
        obtain ⟨k, pk, m0, m1, m2, m3⟩ : ∃ k : ℚ, 0 < k ∧ k ≤ e0 ∧ k ≤ e1 ∧ k ≤ e2 ∧ k ≤ 1 / (s - 1) :=
          ⟨min (min e0 e1) (min e2 (1 / (s - 1))), lt_min (lt_min l0 l1) (lt_min l2 (div_pos one_pos hsp)), (min_le_left _ _).trans (min_le_left _ _), (min_le_left _ _).trans (min_le_right _ _),
            (min_le_right _ _).trans (min_le_left _ _), (min_le_right _ _).trans (min_le_right _ _)⟩
        have m4 : k * (s - 1) ≤ 1 := by rwa [le_div_iff₀ hsp] at m3
        have m5 := mul_pos pk hsp
        refine before (1 + k * (1 - s)) (by linarith) (by linarith) ⟨_, _, _, ?_, combo_ray (by rw [q1]; exact ew) ev k, k0 k pk.le m0, k1 k pk.le m1, k2 k pk.le m2⟩
        linear_combination (1 + k) * hw - k * hv'
    · rintro rfl
      exact ⟨inner_in hin, 1, zero_le_one, q1.symm⟩
  rintro ⟨i, j, d, hij, hi, hj, hmin⟩
  have first : ∀ k, MeetsAt ts p (target t) k d → k = n := by
    intro k hk
    obtain ⟨x, hx, e⟩ := meets_hitAt hk
    obtain ⟨u, hu, hux⟩ := hx
    obtain ⟨hxu, s, hs, ex⟩ := (hux x).2 rfl
    have hle := hmin n _ (hitAt_meets hhit)
    have hs1 : s ≤ 1 := by
      by_contra hlt
      push Not at hlt
      have hpos : 0 < dist2 p (target t) := by
        refine lt_of_le_of_ne (by simp only [dist2, dot]; nlinarith [sq_nonneg (sub (target t) p).x, sq_nonneg (sub (target t) p).y, sq_nonneg (sub (target t) p).z]) fun e => ?_
        refine hpq ?_
        simp only [dist2, dot, sub] at e
        have h1 := mul_self_nonneg ((target t).x - p.x); have h2 := mul_self_nonneg ((target t).y - p.y); have h3 := mul_self_nonneg ((target t).z - p.z)
        refine p3_ext ?_ ?_ ?_
        · have := mul_self_eq_zero.1 (show ((target t).x - p.x) * ((target t).x - p.x) = 0 by linarith); linarith
        · have := mul_self_eq_zero.1 (show ((target t).y - p.y) * ((target t).y - p.y) = 0 by linarith); linarith
        · have := mul_self_eq_zero.1 (show ((target t).z - p.z) * ((target t).z - p.z) = 0 by linarith); linarith
      have : dist2 p x = s * s * dist2 p (target t) := by rw [ex]; simp only [dist2, dot, sub]; ring
      rw [e, this] at hle
      have : 1 < s * s := by nlinarith
      nlinarith
    have hseg : OnSegment p (target t) x := ⟨1 - s, s, by ring, by linarith, hs, by rw [ex]; apply p3_ext <;> simp only <;> ring⟩
    have := hv x hseg ⟨u, List.mem_of_getElem? hu, hxu⟩
    rw [this] at hxu
    exact (ho n k t u hn hu (inner_common (hc.proper t ht) hin (hc.meet t ht u (List.mem_of_getElem? hu) _ (inner_in hin) hxu))).symm
  exact hij ((first i hi).trans (first j hj).symm)

theorem sideOf_not_ub {E : Env} {soup : Soup P3 D} {ts : List (Tri P3)} (hE : E.Valid ts) (hc : Spec.HasCorners soup.points soup.faces ts) (hne : soup.faces ≠ []) (p : P3) (w : String) : sideOf E soup p ≠ ub w := by
  intro h
  have := sideOf_rounds hE hc hne p
  rw [h] at this
  have key : ∀ l r, Rounds ts p l r → r ≠ ub w := by
    intro l r hr
    induction hr with
    | done => simp
    | found => simp
    | failed => simp
    | next _ _ _ _ _ ih => exact ih
  exact key _ _ this rfl

/-- **The side of a point is found if the centroid of some triangle is visible from there** — partial: the full claim, for every solid and every point off its surface, is false (`C75_full_claim_false`). -/
theorem C75_visible_partial {E : Env} {r : Region P3 D} {ts : List (Tri P3)} {χ : P3 → Prop} (hk : r.kind = .boundaryDefined) (h : IsSolid r ts χ) (hE : E.Valid ts) {p : P3} (hp : ¬ Surface ts p)
    (hv : ∃ t ∈ ts, Visible ts p (middle t)) : (χ p → boundedSide E r p = ok .bounded) ∧ (¬ χ p → boundedSide E r p = ok .unbounded) := by
  have hne : r.boundary.faces ≠ [] := by have := h.inv; unfold Spec.RegionInv at this; rwa [hk] at this
  obtain ⟨b, hb⟩ : ∃ b, boundedSide E r p = ok b := by
    cases hs : boundedSide E r p with
    | ok b => exact ⟨b, rfl⟩
    | exn m =>
      obtain ⟨-, hall⟩ := (C75_throws_iff hk h hE hp m).1 hs
      obtain ⟨t, ht, hvis⟩ := hv
      exact absurd (hall t ht) (visible_not_tied h.complex h.once hp ht hvis)
    | ub w =>
      rw [boundedSide_eq hk] at hs
      cases hs' : sideOf E r.boundary p with
      | ok s => rw [hs'] at hs; cases s <;> cases hs
      | exn m => rw [hs'] at hs; cases hs
      | ub w' => exact absurd hs' (sideOf_not_ub hE h.corners hne p w')
  obtain ⟨h1, h2⟩ := C12_side ⟨hk, hne, h.corners⟩ hE h.complex.proper h.bounds (thin_of_complex h.complex h.once) hp hb
  exact ⟨fun hx => by rw [hb, h1.2 hx], fun hx => by rw [hb, h2.2 hx]⟩

/-- A convex solid is on the inner side of the plane of each of its triangles. -/
theorem convex_inner_side {ts : List (Tri P3)} {χ : P3 → Prop} (hc : Complex ts) (ho : Once ts) (hb : Bounds ts χ) (hv : ConvexSet fun x => χ x ∨ Surface ts x) {t : Tri P3} (ht : t ∈ ts) :
    (∀ y, χ y ∨ Surface ts y → (plane t).eval y ≤ 0) ∧ ∃ c, χ c ∧ ¬ Surface ts c := by
  classical
  obtain ⟨i, hi⟩ := List.mem_iff_getElem?.1 ht
  have hok := ok_of_proper (hc.proper t ht)
  have hin := inner_centre t
  have hpl : (plane t).eval (centre t) = 0 := plane_in (inner_in hin)
  have others : ¬ Surface (ts.filter fun u => u ≠ t) (centre t) := by
    rintro ⟨u, hu, hmu⟩
    rw [List.mem_filter] at hu
    obtain ⟨hu, hut⟩ := hu
    obtain ⟨j, hj⟩ := List.mem_iff_getElem?.1 hu
    have := ho i j t u hi hj (inner_common (hc.proper t ht) hin (hc.meet t ht u hu _ (inner_in hin) hmu))
    subst this
    rw [hi] at hj; cases hj
    simp at hut
  obtain ⟨e, he, hball⟩ := ball (fun u hu => ok_of_proper (hc.proper u (List.mem_of_mem_filter hu))) others
  obtain ⟨e1, he1, hj⟩ := hb.jump i t _ hi (part_singly (W := ts) (hW := hc) (fun u hu => ⟨u, hu, match_refl u⟩) ho hi hin)
  obtain ⟨d, hd, -, hsh⟩ := shift_near he (outward t)
  obtain ⟨s, hs0, hs1, hs2⟩ : ∃ s : ℚ, 0 < s ∧ s ≤ e1 ∧ s ≤ d := ⟨min e1 d, lt_min he1 hd, min_le_left _ _, min_le_right _ _⟩
  obtain ⟨j1, j2⟩ := hj s hs0 hs1
  have nn := outward_pos (hc.proper t ht)
  have off : ∀ p q, Near e p (centre t) → Near e q (centre t) → ∀ k : ℚ, 0 < k * (plane t).eval p → 0 < k * (plane t).eval q → ∀ z, OnSegment p q z → ¬ Surface ts z := by
    rintro p q h1 h2 k k1 k2 z hz ⟨u, hu, hzu⟩
    by_cases hut : u = t
    · subst hut
      exact ne_on_segment (plane u) k k1 k2 hz (plane_in hzu)
    · exact hball p q h1 h2 z hz ⟨u, List.mem_filter.2 ⟨hu, by simpa using hut⟩, hzu⟩
  constructor
  · intro y hy
    by_contra hlt
    push Not at hlt
    obtain ⟨k, hk, hk1, hn⟩ := seg_near he (centre t) y
    have hw : 0 < (plane t).eval (seg (1 - k) k (centre t) y) := by
      rw [eval_seg _ (by ring), hpl]
      have := mul_pos hk hlt
      linarith
    have hup : 0 < (plane t).eval (shift (centre t) s (outward t)) := by
      rw [plane_shift, hpl]
      have := mul_pos hs0 nn
      linarith
    have hoff := off _ _ hn (hsh s (by linarith) (by linarith) _) 1 (by linarith) (by linarith)
    rcases hv (centre t) y (seg (1 - k) k (centre t) y) (Or.inr ⟨t, ht, inner_in hin⟩) hy ⟨1 - k, k, by ring, by linarith, hk.le, rfl⟩ with h | h
    · exact j2 ((hb.const _ _ hoff).1 h)
    · exact hoff _ (left_end _ _) h
  · refine ⟨_, j1, ?_⟩
    have hdown : (plane t).eval (shift (centre t) (-s) (outward t)) < 0 := by
      rw [plane_shift, hpl]
      have := mul_pos hs0 nn
      linarith
    exact off _ _ (hsh (-s) (by linarith) (by linarith) _) (hsh (-s) (by linarith) (by linarith) _) (-1) (by linarith) (by linarith) _ (left_end _ _)

/-- Points inside, off the surface, are strictly on the inner side. -/
theorem convex_strict {ts : List (Tri P3)} {χ : P3 → Prop} (hc : Complex ts) (ho : Once ts) (hb : Bounds ts χ) (hv : ConvexSet fun x => χ x ∨ Surface ts x) {t : Tri P3} (ht : t ∈ ts) {p : P3} (hp : χ p) (hs : ¬ Surface ts p) :
    (plane t).eval p < 0 := by
  obtain ⟨h1, -⟩ := convex_inner_side hc ho hb hv ht
  refine lt_of_le_of_ne (h1 p (Or.inl hp)) fun h0 => ?_
  obtain ⟨e, he, hball⟩ := ball (fun u hu => ok_of_proper (hc.proper u hu)) hs
  obtain ⟨d, hd, -, hsh⟩ := shift_near he (outward t)
  have hn := hsh d (by linarith) le_rfl p
  have := h1 _ (Or.inl ((hb.const p _ (hball p _ (near_refl he.le p) hn)).1 hp))
  rw [plane_shift, h0] at this
  have := mul_pos hd (outward_pos (hc.proper t ht))
  linarith

/-- From every point off the surface of a convex solid, the centroid of some triangle is visible. -/
theorem convex_visible {ts : List (Tri P3)} {χ : P3 → Prop} (hne : ts ≠ []) (hc : Complex ts) (ho : Once ts) (hb : Bounds ts χ) (hv : ConvexSet fun x => χ x ∨ Surface ts x) (p : P3) (hp : ¬ Surface ts p) : ∃ t ∈ ts, Visible ts p (middle t) := by
  have along : ∀ (u : Tri P3) (q x : P3), OnSegment p q x → ∃ a b : ℚ, a + b = 1 ∧ 0 ≤ a ∧ 0 ≤ b ∧ x = seg a b p q ∧ (plane u).eval x = a * (plane u).eval p + b * (plane u).eval q := by
    rintro u q x ⟨a, b, hab, ha, hb, rfl⟩
    exact ⟨a, b, hab, ha, hb, rfl, eval_seg (plane u) hab p q⟩
  have fin : ∀ (q x : P3) (a b : ℚ), a + b = 1 → a = 0 → x = seg a b p q → x = q := by
    rintro q x a b hab rfl rfl
    have : b = 1 := by linarith
    subst this
    apply p3_ext <;> simp [seg]
  obtain ⟨t0, ht0⟩ := List.exists_mem_of_ne_nil ts hne
  by_cases hin : χ p
  · refine ⟨t0, ht0, fun x hx ⟨u, hu, hxu⟩ => ?_⟩
    obtain ⟨a, b, hab, ha, hb', ex, e⟩ := along u _ x hx
    have hpu : (plane u).eval p < 0 := convex_strict hc ho hb hv hu hin hp
    have hq : (plane u).eval (middle t0) ≤ 0 := (convex_inner_side hc ho hb hv hu).1 _ (Or.inr ⟨t0, ht0, centroid_in t0⟩)
    rw [plane_in hxu] at e
    have h1 := mul_nonneg hb' (neg_nonneg.2 hq)
    have h2 := mul_nonneg ha (neg_nonneg.2 hpu.le)
    refine fin _ x a b hab ?_ ex
    rcases mul_eq_zero.1 (show a * (plane u).eval p = 0 by linarith) with h | h
    · exact h
    · exact absurd h hpu.ne
  · have hout : ∃ t ∈ ts, 0 < (plane t).eval p := by
      by_contra hno
      push Not at hno
      obtain ⟨-, c, hcχ, hcs⟩ := convex_inner_side hc ho hb hv ht0
      refine hin ((hb.const p c fun x hx ⟨u, hu, hxu⟩ => ?_).2 hcχ)
      obtain ⟨a, b, hab, ha, hb', ex, e⟩ := along u _ x hx
      have hcu := convex_strict hc ho hb hv hu hcχ hcs
      rw [plane_in hxu] at e
      have h1 := mul_nonneg ha (neg_nonneg.2 (hno u hu))
      have h2 := mul_nonneg hb' (neg_nonneg.2 hcu.le)
      rcases mul_eq_zero.1 (show b * (plane u).eval c = 0 by linarith) with h | h
      · have : x = p := by
          have : a = 1 := by linarith
          subst this h
          rw [ex]; apply p3_ext <;> simp [seg]
        exact hp ⟨u, hu, this ▸ hxu⟩
      · exact hcu.ne h
    obtain ⟨t, ht, hlt⟩ := hout
    refine ⟨t, ht, fun x hx hs => ?_⟩
    obtain ⟨a, b, hab, ha, hb', ex, e⟩ := along t _ x hx
    have hq : (plane t).eval (middle t) = 0 := plane_in (centroid_in t)
    have hle := (convex_inner_side hc ho hb hv ht).1 x (Or.inr hs)
    rw [e, hq] at hle
    refine fin _ x a b hab ?_ ex
    have := mul_nonneg ha hlt.le
    rcases mul_eq_zero.1 (show a * (plane t).eval p = 0 by linarith) with h | h
    · exact h
    · exact absurd h hlt.ne'

/-- **The side of a point is always found for convex solids.** -/
theorem C75_convex {E : Env} {r : Region P3 D} {ts : List (Tri P3)} {χ : P3 → Prop} (hk : r.kind = .boundaryDefined) (h : IsSolid r ts χ) (hc : ConvexSet fun x => χ x ∨ Surface ts x) (hE : E.Valid ts) {p : P3} (hp : ¬ Surface ts p) :
    (χ p → boundedSide E r p = ok .bounded) ∧ (¬ χ p → boundedSide E r p = ok .unbounded) := by
  have hkind := h.kind
  rw [hk] at hkind
  exact C75_visible_partial hk h hE hp (convex_visible hkind h.complex h.once h.bounds hc p hp)

/-! ## Three beams -/

theorem beams_corners : Spec.HasCorners beamsRegion.boundary.points beamsRegion.boundary.faces beams := by
  simp [Spec.HasCorners, beamsRegion, beams, beam1, beam2, beam3, Space.tetra]

theorem beams_solid : IsSolid beamsRegion beams beamsInside where
  inv := by simp [Spec.RegionInv, beamsRegion]
  wf := ⟨rfl, by decide⟩
  corners := beams_corners
  complex := beams_complex
  once := beams_once
  bounds := beams_bounds
  kind := by simp [KindSays, beamsRegion, beams, beam1, Space.tetra]

/-- **The side of a point is not always found.** There is a solid, three tetrahedra apart from each other, and a point outside, for which `bounded_side` throws, whatever CGAL returns as long as it is right. -/
theorem C75_full_claim_false : ∃ (r : Region P3 Unit) (ts : List (Tri P3)) (χ : P3 → Prop) (p : P3), r.kind = .boundaryDefined ∧ IsSolid r ts χ ∧ ¬ Surface ts p ∧ ¬ χ p ∧ (∃ E : Env, E.Valid ts) ∧
    ∀ E : Env, E.Valid ts → boundedSide E r p = exn "cannot determine the side of the point" := by
  have hv : (exactEnv 12).Valid beams := exactEnv_valid (ts := beams) fun t ht => ok_of_proper (beams_complex.proper t ht)
  obtain ⟨o1, o2, o3⟩ : ¬ Closed beam1 ⟨0, 0, 0⟩ ∧ ¬ Closed beam2 ⟨0, 0, 0⟩ ∧ ¬ Closed beam3 ⟨0, 0, 0⟩ := by unfold Closed; decide +kernel
  refine ⟨beamsRegion, beams, beamsInside, ⟨0, 0, 0⟩, rfl, beams_solid, fun h => ?_, ?_, ⟨_, hv⟩, fun E hE => ?_⟩
  · rcases surface_append.1 h with h | h
    · rcases surface_append.1 h with h | h
      · exact o1 (closed_of_surface conv1 h)
      · exact o2 (closed_of_surface conv2 h)
    · exact o3 (closed_of_surface conv3 h)
  · rintro ((h | h) | h)
    · exact o1 (closed_of_within h)
    · exact o2 (closed_of_within h)
    · exact o3 (closed_of_within h)
  · rw [C68_determined ⟨rfl, by simp [beamsRegion], beams_corners⟩ hE hv, boundedSide_exn rfl]
    exact beams_ties

theorem tetra_convexSet : ConvexSet fun x => tetraInside x ∨ Surface tetraFaces x := by
  have e : ∀ x, (tetraInside x ∨ Surface tetraFaces x) ↔ tetraClosed x := by
    intro x
    rw [tetra_surface]
    unfold tetraInside tetraClosed
    constructor
    · rintro (⟨h1, h2, h3, h4⟩ | h)
      · exact ⟨h1.le, h2.le, h3.le, h4.le⟩
      · exact h.1
    · rintro ⟨h1, h2, h3, h4⟩
      by_contra hc
      push Not at hc
      obtain ⟨c1, c2⟩ := hc
      obtain ⟨d1, d2, d3, d4⟩ := c2 ⟨h1, h2, h3, h4⟩
      have := c1 (lt_of_le_of_ne h1 (Ne.symm d1)) (lt_of_le_of_ne h2 (Ne.symm d2)) (lt_of_le_of_ne h3 (Ne.symm d3))
      exact d4 (le_antisymm h4 this)
  intro x y z hx hy hz
  rw [e] at *
  obtain ⟨a, b, hab, ha, hb, rfl⟩ := hz
  obtain ⟨h1, h2, h3, h4⟩ := hx
  obtain ⟨g1, g2, g3, g4⟩ := hy
  refine ⟨add_nonneg (mul_nonneg ha h1) (mul_nonneg hb g1), add_nonneg (mul_nonneg ha h2) (mul_nonneg hb g2), add_nonneg (mul_nonneg ha h3) (mul_nonneg hb g3), ?_⟩
  have k1 := mul_le_mul_of_nonneg_left h4 ha
  have k2 := mul_le_mul_of_nonneg_left g4 hb
  simp only
  linarith

/-- All hypotheses of the positive results hold for a tetrahedron, inside and outside. -/
example : boundedSide (exactEnv 4) tetraSolid ⟨1 / 5, 1 / 5, 1 / 5⟩ = ok .bounded ∧ boundedSide (exactEnv 4) tetraSolid ⟨1, 1, 1⟩ = ok .unbounded := by
  have hs : IsSolid tetraSolid tetraFaces tetraInside := doubleSolid_is true
  have hE : (exactEnv 4).Valid tetraFaces := exactEnv_valid (ts := tetraFaces) fun t ht => ok_of_proper (tetra_ok t ht)
  have off : ∀ x : P3, (tetraClosed x → x.x ≠ 0 ∧ x.y ≠ 0 ∧ x.z ≠ 0 ∧ x.x + x.y + x.z ≠ 1) → ¬ Surface tetraFaces x := by
    intro x h hx
    obtain ⟨h1, h2⟩ := (tetra_surface x).1 hx
    have := h h1
    tauto
  constructor
  · exact (C75_convex rfl hs tetra_convexSet hE (off _ (by norm_num))).1 (by norm_num [tetraInside])
  · exact (C75_convex rfl hs tetra_convexSet hE (off _ (by norm_num [tetraClosed]))).2 (by norm_num [tetraInside])

theorem beams_off : ¬ Surface beams ⟨0, 0, 0⟩ := by
  obtain ⟨o1, o2, o3⟩ : ¬ Closed beam1 ⟨0, 0, 0⟩ ∧ ¬ Closed beam2 ⟨0, 0, 0⟩ ∧ ¬ Closed beam3 ⟨0, 0, 0⟩ := by unfold Closed; decide +kernel
  intro h
  rcases surface_append.1 h with h | h
  · rcases surface_append.1 h with h | h
    · exact o1 (closed_of_surface conv1 h)
    · exact o2 (closed_of_surface conv2 h)
  · exact o3 (closed_of_surface conv3 h)

/-- The characterisation of failures holds for the beams: all rays are tied. -/
theorem beams_tied : ∀ t ∈ beams, Tied beams ⟨0, 0, 0⟩ (middle t) := by
  have hv : (exactEnv 12).Valid beams := exactEnv_valid (ts := beams) fun t ht => ok_of_proper (beams_complex.proper t ht)
  exact ((C75_throws_iff rfl beams_solid hv beams_off _).1 ((boundedSide_exn rfl).2 beams_ties)).2

end Kigumi.Props

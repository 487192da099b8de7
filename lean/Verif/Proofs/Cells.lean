import Verif.Proofs.Surface

/-! # The cells into which the triangles of a complex cut space -/
namespace Kigumi.Space
open Kigumi Geo Spec.Triangles Spec.Side FaceFace
open Kigumi.Spec (SameTri Arrangement)
open Kigumi.Side (Aff plane Ok eval_seg eval_near eval_near_ne near_refl near_mono near_trans miss_near exists_eps shift_near seg_near in_seg all_near_ne plane_in ne_on_segment
  left_end right_end onSegment_self ok_of_proper in_iff eval_plane' eval_neg onSegment_swap onSegment_part eval_plane)

/-- A convex set that is cut by triangles which meet only in common vertices and edges. -/
structure Split (K : P3 → Prop) (W : List (Tri P3)) : Prop where
  zone : Zone K
  complex : Complex W
  within : StaysIn K W

/-- Points of the convex set off the triangles, up to paths that avoid the triangles. -/
def Cell (K : P3 → Prop) (W : List (Tri P3)) : Type := Quot (fun x y : { x : P3 // Off K W x } => ∀ z, OnSegment x.1 y.1 z → ¬ Surface W z)

/-- The cell with a point. -/
def cellOf (K : P3 → Prop) (W : List (Tri P3)) (x : P3) (h : Off K W x) : Cell K W := Quot.mk _ ⟨x, h⟩

theorem cellOf_eq {K : P3 → Prop} {W : List (Tri P3)} {x y : P3} (hx : K x) (hy : K y) (h : ∀ z, OnSegment x y z → ¬ Surface W z) : cellOf K W x ⟨hx, h x (left_end x y)⟩ = cellOf K W y ⟨hy, h y (right_end x y)⟩ :=
  Quot.sound h

theorem cellOf_surj {K : P3 → Prop} {W : List (Tri P3)} (c : Cell K W) : ∃ x h, cellOf K W x h = c := by
  obtain ⟨⟨x, h⟩, rfl⟩ := Quot.exists_rep c
  exact ⟨x, h, rfl⟩

/-- Close to an inner point, on the side with sign `s`. -/
def OnSide (K : P3 → Prop) (W : List (Tri P3)) (t : Tri P3) (s : ℚ) (c : Cell K W) : Prop :=
  ∀ x, Inner t x → ∃ e > 0, ∀ p, Near e p x → 0 < s * (plane t).eval p → ∃ h, cellOf K W p h = c

/-- A point on the side with sign `s`. -/
theorem step {t : Tri P3} (ht : Ok t) {x : P3} (hx : In t x) (s : ℚ) (hs : s = 1 ∨ s = -1) {e : ℚ} (he : 0 < e) : ∃ d > 0, ∀ k, 0 < k → k ≤ d → Near e (shift x (s * k) (outward t)) x ∧ 0 < s * (plane t).eval (shift x (s * k) (outward t)) := by
  obtain ⟨d, hd, _, hsh⟩ := shift_near he (outward t)
  refine ⟨d, hd, fun k h0 hk => ⟨hsh (s * k) (by rcases hs with rfl | rfl <;> linarith) (by rcases hs with rfl | rfl <;> linarith) x, ?_⟩⟩
  have e1 : (plane t).eval (shift x (s * k) (outward t)) = (plane t).eval x + s * k * dot (outward t) (outward t) := by
    have : (plane t).n = outward t := rfl
    simp only [Aff.eval, this, shift, dot]; ring
  rw [e1, plane_in hx, zero_add]
  have hN : 0 < dot (outward t) (outward t) := dot_self_pos ht
  rcases hs with rfl | rfl <;> nlinarith

/-- Along the inside of a triangle, on one side of it, in the convex set. -/
theorem Split.strip {K : P3 → Prop} {W : List (Tri P3)} (hW : Split K W) {t : Tri P3} (ht : t ∈ W) {x g : P3} (hx : Inner t x) (hg : Inner t g) :
    ∃ e > 0, ∀ p q, Near e p x → Near e q g → K p ∧ K q ∧ ((∃ s, 0 < s * (plane t).eval p ∧ 0 < s * (plane t).eval q) → ∀ z, OnSegment p q z → ¬ Surface W z) := by
  obtain ⟨e, he, k⟩ := Space.strip hW.complex ht hx hg
  obtain ⟨e1, he1, k1⟩ := hW.zone.near x (hW.within t ht x hx)
  obtain ⟨e2, he2, k2⟩ := hW.zone.near g (hW.within t ht g hg)
  refine ⟨min e (min e1 e2), lt_min he (lt_min he1 he2), fun p q hp hq => ⟨k1 p (near_mono (le_trans (min_le_right _ _) (min_le_left _ _)) hp), k2 q (near_mono (le_trans (min_le_right _ _) (min_le_right _ _)) hq), ?_⟩⟩
  exact k p q (near_mono (min_le_left _ _) hp) (near_mono (min_le_left _ _) hq)

theorem exists_side {K : P3 → Prop} {W : List (Tri P3)} (hW : Split K W) {t : Tri P3} (ht : t ∈ W) (s : ℚ) (hs : s = 1 ∨ s = -1) : ∃ c, OnSide K W t s c := by
  have ok := ok_of_proper (hW.complex.proper t ht)
  obtain ⟨e0, he0, k0⟩ := hW.strip ht (inner_centre t) (inner_centre t)
  obtain ⟨d0, hd0, g0⟩ := step ok (inner_in (inner_centre t)) s hs he0
  obtain ⟨a0, b0⟩ := g0 d0 hd0 (le_refl _)
  generalize shift (centre t) (s * d0) (outward t) = p0 at a0 b0
  obtain ⟨in0, -, off0⟩ := k0 p0 p0 a0 a0
  have off0 := off0 ⟨s, b0, b0⟩ p0 (left_end _ _)
  refine ⟨cellOf K W p0 ⟨in0, off0⟩, fun x hx => ?_⟩
  obtain ⟨e1, he1, k1⟩ := hW.strip ht hx (inner_centre t)
  refine ⟨e1, he1, fun p hp hps => ?_⟩
  obtain ⟨d, hd, g⟩ := step ok (inner_in (inner_centre t)) s hs (lt_min he0 he1)
  obtain ⟨a, b⟩ := g d hd (le_refl _)
  generalize shift (centre t) (s * d) (outward t) = q at a b
  obtain ⟨i1, i2, h1⟩ := k1 p q hp (near_mono (min_le_right _ _) a)
  obtain ⟨-, -, h2⟩ := k0 q p0 (near_mono (min_le_left _ _) a) a0
  have h1 := h1 ⟨s, hps, b⟩
  have h2 := h2 ⟨s, b, b0⟩
  exact ⟨⟨i1, h1 p (left_end _ _)⟩, (cellOf_eq i1 i2 h1).trans (cellOf_eq i2 in0 h2)⟩

theorem onSide_unique {K : P3 → Prop} {W : List (Tri P3)} {t : Tri P3} (ht : Ok t) {s : ℚ} (hs : s = 1 ∨ s = -1) {c c' : Cell K W} (h : OnSide K W t s c) (h' : OnSide K W t s c') : c = c' := by
  obtain ⟨e, he, k⟩ := h _ (inner_centre t)
  obtain ⟨e', he', k'⟩ := h' _ (inner_centre t)
  obtain ⟨d, hd, g⟩ := step ht (inner_in (inner_centre t)) s hs (lt_min he he')
  obtain ⟨a, b⟩ := g d hd (le_refl _)
  obtain ⟨_, h1⟩ := k _ (near_mono (min_le_left _ _) a) b
  obtain ⟨_, h2⟩ := k' _ (near_mono (min_le_right _ _) a) b
  exact h1.symm.trans h2

theorem onSide_same {K : P3 → Prop} {W : List (Tri P3)} {t u : Tri P3} (h : SameTri t u) {s : ℚ} {c : Cell K W} (hc : OnSide K W t s c) : OnSide K W u s c := by
  intro x hx
  have hxt : Inner t x := by
    have : Match u t := match_symm (Or.inl h)
    exact inner_match this hx
  obtain ⟨e, he, k⟩ := hc x hxt
  exact ⟨e, he, fun p hp hs => k p hp (by rwa [plane_same h] at hs)⟩

theorem onSide_flip {K : P3 → Prop} {W : List (Tri P3)} {t u : Tri P3} (h : SameTri t.flip u) {s : ℚ} {c : Cell K W} (hc : OnSide K W t s c) : OnSide K W u (-s) c := by
  intro x hx
  have hxt : Inner t x := by
    have : Match u t := match_symm (Or.inr h)
    exact inner_match this hx
  obtain ⟨e, he, k⟩ := hc x hxt
  exact ⟨e, he, fun p hp hs => k p hp (by rw [plane_same h, plane_flip] at hs; linarith)⟩

/-- The arrangement of a complex: its walls are the triangles, of which those with the same corners count once. -/
noncomputable def arr {K : P3 → Prop} (W : List (Tri P3)) (hW : Split K W) : Arrangement P3 (Cell K W) where
  Wall := { i : Fin W.length // ∀ j : Fin W.length, j < i → ¬ Match W[j] W[i] }
  tri w := W[w.1]
  behind w := Classical.choose (exists_side hW (List.getElem_mem w.1.2) (-1) (Or.inr rfl))
  front w := Classical.choose (exists_side hW (List.getElem_mem w.1.2) 1 (Or.inl rfl))
  distinct w := proper_distinct (hW.complex.proper _ (List.getElem_mem w.1.2))
  support w w' h := by
    have hp := proper_distinct (hW.complex.proper _ (List.getElem_mem w.1.2))
    have hm : Match W[w.1] W[w'.1] := match_of_mem hp ((h _).1 (by simp [Tri.toList])) ((h _).1 (by simp [Tri.toList])) ((h _).1 (by simp [Tri.toList]))
    rcases Nat.lt_trichotomy w.1.1 w'.1.1 with hlt | heq | hlt
    · exact absurd hm (w'.2 _ hlt)
    · exact Subtype.ext (Fin.ext heq)
    · exact absurd (match_symm hm) (w.2 _ hlt)

section
variable {K : P3 → Prop} {W : List (Tri P3)} (hW : Split K W)

theorem arr_mem (w : (arr W hW).Wall) : (arr W hW).tri w ∈ W := List.getElem_mem w.1.2

theorem arr_behind (w : (arr W hW).Wall) : OnSide K W ((arr W hW).tri w) (-1) ((arr W hW).behind w) :=
  Classical.choose_spec (exists_side hW (List.getElem_mem w.1.2) (-1) (Or.inr rfl))
theorem arr_front (w : (arr W hW).Wall) : OnSide K W ((arr W hW).tri w) 1 ((arr W hW).front w) :=
  Classical.choose_spec (exists_side hW (List.getElem_mem w.1.2) 1 (Or.inl rfl))

theorem arr_wall {t : Tri P3} (ht : t ∈ W) : ∃ w, Match ((arr W hW).tri w) t := by
  classical
  obtain ⟨i, hi, rfl⟩ := List.mem_iff_getElem.1 ht
  have hex : ∃ j : Nat, ∃ h : j < W.length, Match W[j] W[i] := ⟨i, hi, match_refl _⟩
  obtain ⟨h, hm⟩ := Nat.find_spec hex
  refine ⟨⟨⟨Nat.find hex, h⟩, fun j hj hjm => ?_⟩, hm⟩
  exact Nat.find_min hex hj ⟨j.2, match_trans hjm hm⟩

/-- Cells on the two sides of an inner point of a triangle. -/
theorem arr_sides {t : Tri P3} (ht : t ∈ W) {w : (arr W hW).Wall} (hm : Match ((arr W hW).tri w) t) {x : P3} (hx : Inner t x) :
    ∃ e > 0, ∀ p, Near e p x → (plane t).eval p ≠ 0 → ∃ h, cellOf K W p h = (arr W hW).front w ∨ cellOf K W p h = (arr W hW).behind w := by
  have hx' := inner_match (match_symm hm) hx
  obtain ⟨e1, he1, k1⟩ := arr_front hW w x hx'
  obtain ⟨e2, he2, k2⟩ := arr_behind hW w x hx'
  refine ⟨min e1 e2, lt_min he1 he2, fun p hp h0 => ?_⟩
  have h0 : (plane ((arr W hW).tri w)).eval p ≠ 0 := fun h => h0 ((plane_match hm p).2 h)
  rcases lt_or_gt_of_ne h0 with h | h
  · obtain ⟨h, e⟩ := k2 p (near_mono (min_le_right _ _) hp) (by linarith)
    exact ⟨h, Or.inr e⟩
  · obtain ⟨h, e⟩ := k1 p (near_mono (min_le_left _ _) hp) (by linarith)
    exact ⟨h, Or.inl e⟩

/-- **From every cell every other cell is reached through walls.** -/
theorem arr_connected : (arr W hW).Connected := by
  intro c d
  obtain ⟨y, hy, rfl⟩ := cellOf_surj c
  obtain ⟨z, hz, rfl⟩ := cellOf_surj d
  have okW : ∀ t ∈ W, Ok t := fun t ht => ok_of_proper (hW.complex.proper t ht)
  obtain ⟨e, he, k⟩ := ball okW hz.2
  obtain ⟨e3, he3, k3⟩ := hW.zone.near z hz.1
  obtain ⟨z', hz'', hg⟩ := generic_near okW hy.2 z (lt_min he he3)
  have hz' := near_mono (min_le_left _ _) hz''
  have hzK := k3 z' (near_mono (min_le_right _ _) hz'')
  have hV := walk hW.zone hy.1 hzK hg (fun p => ∃ h, Relation.ReflTransGen (arr W hW).Adj (cellOf K W y hy) (cellOf K W p h)) (by
    intro p q hp hq h
    have e := cellOf_eq hp hq h
    constructor
    · rintro ⟨_, h'⟩; exact ⟨_, e ▸ h'⟩
    · rintro ⟨_, h'⟩; exact ⟨_, e.symm ▸ h'⟩) (by
    intro t ht x _ hx
    obtain ⟨w, hw⟩ := arr_wall hW ht
    obtain ⟨e, he, k⟩ := arr_sides hW ht hw hx
    refine ⟨e, he, fun p q hp hq h1 h2 => ?_⟩
    obtain ⟨o1, c1⟩ := k p hp h1
    obtain ⟨o2, c2⟩ := k q hq h2
    have step : ∀ a b : Cell K W, (a = (arr W hW).front w ∨ a = (arr W hW).behind w) → (b = (arr W hW).front w ∨ b = (arr W hW).behind w) →
        Relation.ReflTransGen (arr W hW).Adj (cellOf K W y hy) a → Relation.ReflTransGen (arr W hW).Adj (cellOf K W y hy) b := by
      rintro a b (rfl | rfl) (rfl | rfl) h
      · exact h
      · exact h.tail ⟨w, Or.inr ⟨rfl, rfl⟩⟩
      · exact h.tail ⟨w, Or.inl ⟨rfl, rfl⟩⟩
      · exact h
    constructor
    · rintro ⟨_, h⟩; exact ⟨o2, step _ _ c1 c2 h⟩
    · rintro ⟨_, h⟩; exact ⟨o1, step _ _ c2 c1 h⟩)
  obtain ⟨_, h⟩ := hV.1 ⟨hy, Relation.ReflTransGen.refl⟩
  rw [← cellOf_eq hz.1 hzK (k z z' (near_refl he.le _) hz')] at h
  exact h
end

/-! ## Counting -/

theorem countP_le_one {α : Type} {p : α → Bool} : ∀ {l : List α}, (∀ (i j : Nat) (a b : α), l[i]? = some a → l[j]? = some b → p a = true → p b = true → i = j) → l.countP p ≤ 1
  | [], _ => by simp
  | a :: l, h => by
    rw [List.countP_cons]
    by_cases ha : p a = true
    · rw [if_pos ha]
      have : l.countP p = 0 := by
        rw [List.countP_eq_zero]
        intro b hb hpb
        obtain ⟨j, hj⟩ := List.mem_iff_getElem?.1 hb
        have := h 0 (j + 1) a b rfl hj ha hpb
        omega
      omega
    · rw [if_neg ha]
      have := countP_le_one (l := l) (fun i j x y hx hy px py => by
        have := h (i + 1) (j + 1) x y hx hy px py
        omega)
      omega

theorem index_unique {α : Type} {p : α → Bool} : ∀ {l : List α}, l.countP p ≤ 1 → ∀ (i j : Nat) (a b : α), l[i]? = some a → l[j]? = some b → p a = true → p b = true → i = j
  | [], _, i, _, _, _, hi, _, _, _ => by simp at hi
  | c :: l, h, i, j, a, b, hi, hj, ha, hb => by
    rw [List.countP_cons] at h
    have zero : p c = true → ∀ (k : Nat) (x : α), l[k]? = some x → p x = true → False := by
      intro hc k x hx px
      rw [if_pos hc] at h
      have : l.countP p = 0 := by omega
      rw [List.countP_eq_zero] at this
      exact this x (List.mem_of_getElem? hx) px
    rcases i with _ | i <;> rcases j with _ | j
    · rfl
    · simp only [List.getElem?_cons_zero, Option.some.injEq, List.getElem?_cons_succ] at hi hj
      subst hi; exact (zero ha j b hj hb).elim
    · simp only [List.getElem?_cons_zero, Option.some.injEq, List.getElem?_cons_succ] at hi hj
      subst hj; exact (zero hb i a hi ha).elim
    · simp only [List.getElem?_cons_succ] at hi hj
      have : l.countP p ≤ 1 := by omega
      have := index_unique this i j a b hi hj ha hb
      omega

theorem countP_or {α : Type} (p q : α → Bool) (l : List α) : l.countP (fun a => p a || q a) ≤ l.countP p + l.countP q := by
  induction l with
  | nil => simp
  | cons a l ih =>
    simp only [List.countP_cons]
    cases p a <;> cases q a <;> simp <;> omega

theorem not_both {t u : Tri P3} (h : t.a ≠ t.b ∧ t.b ≠ t.c ∧ t.c ≠ t.a) (h1 : SameTri t u) (h2 : SameTri t.flip u) : False := by
  obtain ⟨a, b, c⟩ := t
  obtain ⟨p, q, r⟩ := u
  simp only [SameTri, Tri.flip, Tri.rot, Tri.mk.injEq] at *
  obtain ⟨x1, x2, x3⟩ := h
  rcases h1 with ⟨rfl, rfl, rfl⟩ | ⟨rfl, rfl, rfl⟩ | ⟨rfl, rfl, rfl⟩ <;> simp_all

/-! ## Regions of points and regions of cells -/

section
variable {K : P3 → Prop} {W : List (Tri P3)} (hW : Split K W)

/-- A region of cells, as a region of points off the triangles. -/
def InCell (χ : Cell K W → Bool) (x : P3) : Prop := ∃ h, χ (cellOf K W x h) = true

theorem inCell_off {χ : Cell K W → Bool} {x : P3} (h : Off K W x) : InCell χ x ↔ χ (cellOf K W x h) = true := ⟨fun ⟨_, h'⟩ => h', fun h' => ⟨h, h'⟩⟩

/-- **Triangles that bound a set of cells bound the points of these cells.** -/
theorem select_of_bounds {R : List (Tri P3)} {χ : Cell K W → Bool} (h : Spec.Bounds (arr W hW) R χ) : Select K W R (InCell χ) where
  complex := hW.complex
  zone := hW.zone
  within := hW.within
  from_ r hr := by
    obtain ⟨w, hw⟩ := h.1 r hr
    exact ⟨_, arr_mem hW w, hw⟩
  once i j t u ht hu hm := by
    obtain ⟨w, hw⟩ := h.1 t (List.mem_of_getElem? ht)
    have hwt : Match ((arr W hW).tri w) t := hw
    have hwu := match_trans hwt hm
    have hc : R.countP (fun t => decide (SameTri ((arr W hW).tri w) t) || decide (SameTri ((arr W hW).tri w).flip t)) ≤ 1 := by
      refine le_trans (countP_or _ _ _) ?_
      rw [(h.2 w).1, (h.2 w).2]
      cases χ ((arr W hW).behind w) <;> cases χ ((arr W hW).front w) <;> simp
    exact index_unique hc i j t u ht hu (by simpa [Match] using hwt) (by simpa [Match] using hwu)
  const p q hp hq hpq := by
    have e := cellOf_eq hp hq hpq
    rw [inCell_off ⟨hp, hpq p (left_end _ _)⟩, inCell_off ⟨hq, hpq q (right_end _ _)⟩, e]
  same t ht hno x hx := by
    obtain ⟨w, hw⟩ := arr_wall hW ht
    obtain ⟨e, he, k⟩ := arr_sides hW ht hw hx
    have hz : ∀ r ∈ R, ¬ SameTri ((arr W hW).tri w) r ∧ ¬ SameTri ((arr W hW).tri w).flip r := fun r hr =>
      ⟨fun h' => hno r hr (match_trans (match_symm hw) (Or.inl h')), fun h' => hno r hr (match_trans (match_symm hw) (Or.inr h'))⟩
    have z1 : R.countP (fun t => decide (SameTri ((arr W hW).tri w) t)) = 0 := by
      rw [List.countP_eq_zero]; intro r hr; simpa using (hz r hr).1
    have z2 : R.countP (fun t => decide (SameTri ((arr W hW).tri w).flip t)) = 0 := by
      rw [List.countP_eq_zero]; intro r hr; simpa using (hz r hr).2
    have hc := h.2 w
    rw [z1, z2] at hc
    have heq : χ ((arr W hW).behind w) = χ ((arr W hW).front w) := by
      obtain ⟨h1, h2⟩ := hc
      revert h1 h2
      cases χ ((arr W hW).behind w) <;> cases χ ((arr W hW).front w) <;> simp
    refine ⟨e, he, fun p q hp hq h1 h2 => ?_⟩
    obtain ⟨o1, c1⟩ := k p hp h1
    obtain ⟨o2, c2⟩ := k q hq h2
    rw [inCell_off o1, inCell_off o2]
    rcases c1 with c1 | c1 <;> rcases c2 with c2 | c2 <;> rw [c1, c2] <;> simp only [heq]
  jump r hr x hx := by
    obtain ⟨w, hw | hw⟩ := h.1 r hr
    · have hpos : 0 < R.countP (fun t => decide (SameTri ((arr W hW).tri w) t)) := List.countP_pos_iff.2 ⟨r, hr, by simpa using hw⟩
      have hc := (h.2 w).1
      rw [hc] at hpos
      have hv : χ ((arr W hW).behind w) = true ∧ χ ((arr W hW).front w) = false := by
        revert hpos; cases χ ((arr W hW).behind w) <;> cases χ ((arr W hW).front w) <;> simp
      obtain ⟨e1, he1, k1⟩ := onSide_same hw (arr_front hW w) x hx
      obtain ⟨e2, he2, k2⟩ := onSide_same hw (arr_behind hW w) x hx
      refine ⟨min e1 e2, lt_min he1 he2, fun p hp => ⟨fun hpl => ?_, fun hpl => ?_⟩⟩
      · obtain ⟨o, c⟩ := k1 p (near_mono (min_le_left _ _) hp) (by linarith)
        rw [inCell_off o, c, hv.2]; simp
      · obtain ⟨o, c⟩ := k2 p (near_mono (min_le_right _ _) hp) (by linarith)
        rw [inCell_off o, c, hv.1]
    · have hpos : 0 < R.countP (fun t => decide (SameTri ((arr W hW).tri w).flip t)) := List.countP_pos_iff.2 ⟨r, hr, by simpa using hw⟩
      have hc := (h.2 w).2
      rw [hc] at hpos
      have hv : χ ((arr W hW).front w) = true ∧ χ ((arr W hW).behind w) = false := by
        revert hpos; cases χ ((arr W hW).behind w) <;> cases χ ((arr W hW).front w) <;> simp
      obtain ⟨e1, he1, k1⟩ := onSide_flip hw (arr_front hW w) x hx
      obtain ⟨e2, he2, k2⟩ := onSide_flip hw (arr_behind hW w) x hx
      refine ⟨min e1 e2, lt_min he1 he2, fun p hp => ⟨fun hpl => ?_, fun hpl => ?_⟩⟩
      · obtain ⟨o, c⟩ := k2 p (near_mono (min_le_right _ _) hp) (by linarith)
        rw [inCell_off o, c, hv.2]; simp
      · obtain ⟨o, c⟩ := k1 p (near_mono (min_le_left _ _) hp) (by linarith)
        rw [inCell_off o, c, hv.1]

/-- Some triangles of a complex. -/
def Part (W ts : List (Tri P3)) : Prop := ∀ t ∈ ts, ∃ u ∈ W, Match u t

theorem part_surface {ts : List (Tri P3)} (hp : Part W ts) {x : P3} (h : Surface ts x) : Surface W x := by
  obtain ⟨t, ht, hin⟩ := h
  obtain ⟨u, hu, hm⟩ := hp t ht
  exact ⟨u, hu, in_match (match_symm hm) hin⟩

theorem part_proper (hW : Complex W) {ts : List (Tri P3)} (hp : Part W ts) : ∀ t ∈ ts, Proper t := fun t ht => by
  obtain ⟨u, hu, hm⟩ := hp t ht
  exact match_proper hm (hW.proper u hu)

theorem part_meet (hW : Complex W) {ts us : List (Tri P3)} (hp : Part W ts) (hq : Part W us) {r r' : Tri P3} (hr : r ∈ ts) (hr' : r' ∈ us) {x : P3} (hx : Inner r x) (hx' : In r' x) : Match r r' := by
  obtain ⟨t, ht, hm⟩ := hp r hr
  obtain ⟨t', ht', hm'⟩ := hq r' hr'
  have hx := inner_match (match_symm hm) hx
  exact match_trans (match_symm hm) (match_trans (inner_common (hW.proper t ht) hx (hW.meet t ht t' ht' x (inner_in hx) (in_match (match_symm hm') hx'))) hm')

theorem part_singly (hW : Complex W) {ts : List (Tri P3)} (hp : Part W ts) (ho : Once ts) {i : Nat} {t : Tri P3} (ht : ts[i]? = some t) {x : P3} (hx : Inner t x) : Singly ts i x :=
  ⟨t, ht, inner_in hx, fun j u hu hin => (ho i j t u ht hu (part_meet hW hp hp (List.mem_of_getElem? ht) (List.mem_of_getElem? hu) hx hin)).symm⟩

/-- A region of points whose boundary is among the triangles, as a region of cells. -/
noncomputable def lower {ts : List (Tri P3)} {χ : P3 → Prop} (hp : Part W ts) (hb : BoundsIn K ts χ) : Cell K W → Bool := by
  classical
  exact Quot.lift (fun x => decide (χ x.1)) (by
    intro x y h
    have := hb.const x.1 y.1 x.2.1 y.2.1 (fun z hz hs => h z hz (part_surface hp hs))
    simp only [this])

theorem lower_cell {ts : List (Tri P3)} {χ : P3 → Prop} (hp : Part W ts) (hb : BoundsIn K ts χ) (x : P3) (h : Off K W x) : lower hp hb (cellOf K W x h) = true ↔ χ x := by
  classical
  show decide (χ x) = true ↔ χ x
  simp

include hW in
/-- The value on one side of a triangle of the boundary. -/
theorem lower_jump {ts : List (Tri P3)} {χ : P3 → Prop} (hp : Part W ts) (ho : Once ts) (hb : BoundsIn K ts χ) {t : Tri P3} (ht : t ∈ ts) {c d : Cell K W} (hc : OnSide K W t (-1) c) (hd : OnSide K W t 1 d) :
    lower hp hb c = true ∧ lower hp hb d = false := by
  obtain ⟨i, hi⟩ := List.mem_iff_getElem?.1 ht
  obtain ⟨e, he, hj⟩ := hb.jump i t (centre t) hi (part_singly hW.complex hp ho hi (inner_centre t)) (by
    obtain ⟨u, hu, hm⟩ := hp t ht
    exact hW.within u hu _ (inner_match (match_symm hm) (inner_centre t)))
  have ok := ok_of_proper (part_proper hW.complex hp t ht)
  obtain ⟨e1, he1, k1⟩ := hc _ (inner_centre t)
  obtain ⟨e2, he2, k2⟩ := hd _ (inner_centre t)
  obtain ⟨d1, hd1, g1⟩ := step ok (inner_in (inner_centre t)) (-1) (Or.inr rfl) he1
  obtain ⟨d2, hd2, g2⟩ := step ok (inner_in (inner_centre t)) 1 (Or.inl rfl) he2
  have hm : 0 < min e (min d1 d2) := lt_min he (lt_min hd1 hd2)
  generalize hs : min e (min d1 d2) = s at hm
  have s0 : s ≤ e := by rw [← hs]; exact min_le_left _ _
  have s1 : s ≤ d1 := by rw [← hs]; exact le_trans (min_le_right _ _) (min_le_left _ _)
  have s2 : s ≤ d2 := by rw [← hs]; exact le_trans (min_le_right _ _) (min_le_right _ _)
  obtain ⟨j1, j2⟩ := hj s hm s0
  obtain ⟨a1, b1⟩ := g1 s hm s1
  obtain ⟨a2, b2⟩ := g2 s hm s2
  have n1 : -1 * s = -s := neg_one_mul s
  have n2 : 1 * s = s := one_mul s
  rw [n1] at a1 b1
  rw [n2] at a2 b2
  obtain ⟨o1, c1⟩ := k1 _ a1 b1
  obtain ⟨o2, c2⟩ := k2 _ a2 b2
  constructor
  · rw [← c1]; exact (lower_cell hp hb _ o1).2 j1
  · rw [← c2, ← Bool.not_eq_true]; exact fun h => j2 ((lower_cell hp hb _ o2).1 h)

include hW in
/-- The value does not change across a triangle that is not on the boundary. -/
theorem lower_same {ts : List (Tri P3)} {χ : P3 → Prop} (hp : Part W ts) (hb : BoundsIn K ts χ) {t : Tri P3} (ht : t ∈ W) (hno : ∀ r ∈ ts, ¬ Match t r) {x : P3} (hx : Inner t x) :
    ∃ e > 0, ∀ p, Near e p x → ∀ h, lower hp hb (cellOf K W p h) = true ↔ χ x := by
  have off : ¬ Surface ts x := by
    rintro ⟨r, hr, hin⟩
    obtain ⟨u, hu, hm⟩ := hp r hr
    exact hno r hr (match_trans (inner_common (hW.complex.proper t ht) hx (hW.complex.meet t ht u hu x (inner_in hx) (in_match (match_symm hm) hin))) hm)
  obtain ⟨e, he, k⟩ := ball (fun t ht => ok_of_proper (part_proper hW.complex hp t ht)) off
  refine ⟨e, he, fun p hpx h => ?_⟩
  rw [lower_cell]
  exact hb.const p x h.1 (hW.within t ht x hx) (k p x hpx (near_refl he.le _))

/-- **Triangles of a complex that bound a region of points bound the cells of this region.** -/
theorem bounds_of_region {ts : List (Tri P3)} {χ : P3 → Prop} (hp : Part W ts) (ho : Once ts) (hb : BoundsIn K ts χ) : Spec.Bounds (arr W hW) ts (lower hp hb) := by
  constructor
  · intro t ht
    obtain ⟨u, hu, hm⟩ := hp t ht
    obtain ⟨w, hw⟩ := arr_wall hW hu
    exact ⟨w, match_trans hw hm⟩
  · intro w
    have hdist := (arr W hW).distinct w
    have le1 : ∀ v : Tri P3, (∀ t, SameTri v t → Match ((arr W hW).tri w) t) → ts.countP (fun t => decide (SameTri v t)) ≤ 1 := by
      intro v hv
      apply countP_le_one
      intro i j a b hi hj ha hb'
      exact ho i j a b hi hj (match_trans (match_symm (hv a (of_decide_eq_true ha))) (hv b (of_decide_eq_true hb')))
    by_cases hex : ∃ t ∈ ts, Match ((arr W hW).tri w) t
    · obtain ⟨t, ht, hm⟩ := hex
      rcases hm with hm | hm
      · obtain ⟨j1, j2⟩ := lower_jump hW hp ho hb ht (onSide_same hm (arr_behind hW w)) (onSide_same hm (arr_front hW w))
        have c1 : 0 < ts.countP (fun t => decide (SameTri ((arr W hW).tri w) t)) := List.countP_pos_iff.2 ⟨t, ht, by simpa using hm⟩
        have c2 := le1 ((arr W hW).tri w) (fun t h => Or.inl h)
        have c3 : ts.countP (fun t => decide (SameTri ((arr W hW).tri w).flip t)) = 0 := by
          rw [List.countP_eq_zero]
          intro u hu hd
          have hd := of_decide_eq_true hd
          obtain ⟨i, hi⟩ := List.mem_iff_getElem?.1 ht
          obtain ⟨j, hj⟩ := List.mem_iff_getElem?.1 hu
          have hij := ho i j t u hi hj (match_trans (match_symm (Or.inl hm)) (Or.inr hd))
          rw [hij, hj] at hi
          rw [Option.some.inj hi] at hd
          exact not_both hdist hm hd
        rw [j1, j2, c3]
        simp; omega
      · obtain ⟨j1, j2⟩ := lower_jump hW hp ho hb ht (c := (arr W hW).front w) (d := (arr W hW).behind w) (onSide_flip hm (arr_front hW w)) (by
          have := onSide_flip hm (arr_behind hW w)
          rwa [neg_neg] at this)
        have c1 : 0 < ts.countP (fun t => decide (SameTri ((arr W hW).tri w).flip t)) := List.countP_pos_iff.2 ⟨t, ht, by simpa using hm⟩
        have c2 := le1 ((arr W hW).tri w).flip (fun t h => Or.inr h)
        have c3 : ts.countP (fun t => decide (SameTri ((arr W hW).tri w) t)) = 0 := by
          rw [List.countP_eq_zero]
          intro u hu hd
          have hd := of_decide_eq_true hd
          obtain ⟨i, hi⟩ := List.mem_iff_getElem?.1 ht
          obtain ⟨j, hj⟩ := List.mem_iff_getElem?.1 hu
          have hij := ho i j t u hi hj (match_trans (match_symm (Or.inr hm)) (Or.inl hd))
          rw [hij, hj] at hi
          rw [Option.some.inj hi] at hd
          exact not_both hdist hd hm
        rw [j1, j2, c3]
        simp; omega
    · have z1 : ts.countP (fun t => decide (SameTri ((arr W hW).tri w) t)) = 0 := by
        rw [List.countP_eq_zero]; intro r hr hd; exact hex ⟨r, hr, Or.inl (of_decide_eq_true hd)⟩
      have z2 : ts.countP (fun t => decide (SameTri ((arr W hW).tri w).flip t)) = 0 := by
        rw [List.countP_eq_zero]; intro r hr hd; exact hex ⟨r, hr, Or.inr (of_decide_eq_true hd)⟩
      rw [z1, z2]
      have heq : lower hp hb ((arr W hW).behind w) = lower hp hb ((arr W hW).front w) := by
        have hx := inner_centre ((arr W hW).tri w)
        have ok := ok_of_proper (hW.complex.proper _ (arr_mem hW w))
        obtain ⟨e, he, k⟩ := lower_same hW hp hb (arr_mem hW w) (fun r hr hm => hex ⟨r, hr, hm⟩) hx
        obtain ⟨e1, he1, k1⟩ := arr_behind hW w _ hx
        obtain ⟨e2, he2, k2⟩ := arr_front hW w _ hx
        obtain ⟨d1, hd1, g1⟩ := step ok (inner_in hx) (-1) (Or.inr rfl) (lt_min he he1)
        obtain ⟨d2, hd2, g2⟩ := step ok (inner_in hx) 1 (Or.inl rfl) (lt_min he he2)
        obtain ⟨a1, b1⟩ := g1 d1 hd1 (le_refl _)
        obtain ⟨a2, b2⟩ := g2 d2 hd2 (le_refl _)
        obtain ⟨o1, c1⟩ := k1 _ (near_mono (min_le_right _ _) a1) b1
        obtain ⟨o2, c2⟩ := k2 _ (near_mono (min_le_right _ _) a2) b2
        have v1 := k _ (near_mono (min_le_left _ _) a1) o1
        have v2 := k _ (near_mono (min_le_left _ _) a2) o2
        rw [c1] at v1
        rw [c2] at v2
        rw [Bool.eq_iff_iff, v1, v2]
      rw [heq]
      cases lower hp hb ((arr W hW).front w) <;> simp
end

end Kigumi.Space

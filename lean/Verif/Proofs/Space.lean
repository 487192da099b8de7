import Verif.Proofs.SideGeometry
import Verif.Spec.Complex

/-! # Walks through triangles that meet only in common vertices and edges -/
namespace Kigumi.Space
open Kigumi Geo Spec.Triangles Spec.Side FaceFace
open Kigumi.Spec (SameTri)
open Kigumi.Side (Aff plane Ok eval_seg eval_near eval_near_ne near_refl near_mono near_trans miss_near exists_eps shift_near seg_near in_seg all_near_ne plane_in ne_on_segment
  left_end right_end onSegment_self ok_of_proper in_iff eval_plane' eval_neg onSegment_swap onSegment_part eval_plane)

/-! ## Generic points -/

theorem aff_ne (f : Aff) (h : f.n ≠ ⟨0, 0, 0⟩) (z : P3) : ∃ y, f.eval y ≠ 0 := by
  by_cases hz : f.eval z = 0
  · refine ⟨shift z 1 f.n, ?_⟩
    have e : f.eval (shift z 1 f.n) = f.eval z + dot f.n f.n := by simp only [Aff.eval, shift, dot]; ring
    rw [e, hz, zero_add]
    intro h0
    obtain ⟨a, b, c⟩ := dot_self_zero h0
    exact h (p3_ext a b c)
  · exact ⟨z, hz⟩

/-- Close to every point there is a point where none of finitely many affine functions is zero. -/
theorem perturb (l : List Aff) (h : ∀ f ∈ l, f.n ≠ ⟨0, 0, 0⟩) (z : P3) {e : ℚ} (he : 0 < e) : ∃ y, Near e y z ∧ ∀ f ∈ l, f.eval y ≠ 0 := by
  induction l generalizing e with
  | nil => exact ⟨z, near_refl he.le z, by simp⟩
  | cons f l ih =>
    obtain ⟨y, hy, hl⟩ := ih (fun g hg => h g (List.mem_cons_of_mem _ hg)) (e := e / 2) (by linarith)
    by_cases hf : f.eval y = 0
    · obtain ⟨w, fw⟩ := aff_ne f (h f List.mem_cons_self) y
      obtain ⟨e', he', hn⟩ := all_near_ne l hl
      obtain ⟨k, hk, hk1, hnear⟩ := seg_near (e := min e' (e / 2)) (lt_min he' (by linarith)) y w
      refine ⟨seg (1 - k) k y w, ?_, fun g hg => ?_⟩
      · have := near_trans (near_mono (min_le_right _ _) hnear) hy
        exact near_mono (by linarith) this
      rcases List.mem_cons.1 hg with rfl | hg
      · rw [eval_seg g (by ring), hf, mul_zero, zero_add]
        exact mul_ne_zero hk.ne' fw
      · exact hn g hg _ (near_mono (min_le_left _ _) hnear)
    · refine ⟨y, near_mono (by linarith) hy, fun g hg => ?_⟩
      rcases List.mem_cons.1 hg with rfl | hg
      · exact hf
      · exact hl g hg

theorem exists_normal (v : P3) : ∃ n : P3, n ≠ ⟨0, 0, 0⟩ ∧ dot n v = 0 := by
  by_cases hx : v.x = 0
  · exact ⟨⟨1, 0, 0⟩, by simp, by simp [dot, hx]⟩
  · refine ⟨⟨-v.y, v.x, 0⟩, ?_, by simp only [dot]; ring⟩
    intro h; injection h with _ h2 _; exact hx h2

/-- Three points are in a plane. -/
theorem exists_plane (p q r : P3) : ∃ f : Aff, f.n ≠ ⟨0, 0, 0⟩ ∧ f.eval p = 0 ∧ f.eval q = 0 ∧ f.eval r = 0 := by
  obtain ⟨n, hn, hq, hr⟩ : ∃ n : P3, n ≠ ⟨0, 0, 0⟩ ∧ dot n (sub q p) = 0 ∧ dot n (sub r p) = 0 := by
    by_cases hc : cross (sub q p) (sub r p) = ⟨0, 0, 0⟩
    · by_cases hv : dot (sub q p) (sub q p) = 0
      · obtain ⟨a, b, c⟩ := dot_self_zero hv
        obtain ⟨n, hn, h⟩ := exists_normal (sub r p)
        exact ⟨n, hn, by simp [dot, a, b, c], h⟩
      · have hc' : dot (cross (sub r p) (sub q p)) (cross (sub r p) (sub q p)) = 0 := by
          have e : dot (cross (sub r p) (sub q p)) (cross (sub r p) (sub q p)) = dot (cross (sub q p) (sub r p)) (cross (sub q p) (sub r p)) := by
            simp only [dot, cross]; ring
          rw [e, hc]; simp [dot]
        obtain ⟨k, hk⟩ := parallel hv hc'
        obtain ⟨n, hn, h⟩ := exists_normal (sub q p)
        refine ⟨n, hn, h, ?_⟩
        rw [hk]
        have : dot n ⟨k * (sub q p).x, k * (sub q p).y, k * (sub q p).z⟩ = k * dot n (sub q p) := by simp only [dot]; ring
        rw [this, h, mul_zero]
    · exact ⟨_, hc, by simp only [dot, cross]; ring, by simp only [dot, cross]; ring⟩
  refine ⟨⟨n, - dot n p⟩, hn, by simp [Aff.eval], ?_, ?_⟩
  · rw [← hq]; simp only [Aff.eval, dot, sub]; ring
  · rw [← hr]; simp only [Aff.eval, dot, sub]; ring

theorem plane_n {t : Tri P3} (h : Ok t) : (plane t).n ≠ ⟨0, 0, 0⟩ := by
  intro h0
  apply h
  show dot (plane t).n (plane t).n = 0
  rw [h0]; simp [dot]

/-- Close to every point there are points off the surface. -/
theorem off_near {W : List (Tri P3)} (hok : ∀ t ∈ W, Ok t) (z : P3) {e : ℚ} (he : 0 < e) : ∃ y, Near e y z ∧ (∀ t ∈ W, (plane t).eval y ≠ 0) ∧ ¬ Surface W y := by
  obtain ⟨y, hy, h⟩ := perturb (W.map plane) (by
    intro f hf
    obtain ⟨t, ht, rfl⟩ := List.mem_map.1 hf
    exact plane_n (hok t ht)) z he
  have h' : ∀ t ∈ W, (plane t).eval y ≠ 0 := fun t ht => h _ (List.mem_map_of_mem ht)
  exact ⟨y, hy, h', fun ⟨t, ht, hin⟩ => h' t ht (plane_in hin)⟩

/-! ## Points of a triangle -/

/-- A point of a triangle that is not an inner point is on an edge. -/
theorem inner_or {t : Tri P3} {x : P3} (h : In t x) : Inner t x ∨ OnSegment t.a t.b x ∨ OnSegment t.b t.c x ∨ OnSegment t.c t.a x := by
  obtain ⟨a, b, c, h1, rfl, h3, h4, h5⟩ := h
  rcases lt_or_eq_of_le h3 with h3 | rfl
  · rcases lt_or_eq_of_le h4 with h4 | rfl
    · rcases lt_or_eq_of_le h5 with h5 | rfl
      · exact Or.inl ⟨a, b, c, h1, rfl, h3, h4, h5⟩
      · exact Or.inr (Or.inl ⟨a, b, by linarith, h3.le, h4.le, by apply p3_ext <;> simp [combo]⟩)
    · exact Or.inr (Or.inr (Or.inr ⟨c, a, by linarith, h5, h3.le, by apply p3_ext <;> simp only [combo] <;> ring⟩))
  · exact Or.inr (Or.inr (Or.inl ⟨b, c, by linarith, h4, h5, by apply p3_ext <;> simp [combo]⟩))

theorem inner_onSegment {t : Tri P3} {x y z : P3} (hx : Inner t x) (hy : Inner t y) (hz : OnSegment x y z) : Inner t z := by
  obtain ⟨u, v, h1, h2, h3, rfl⟩ := hz
  have hu : u = 1 - v := by linarith
  subst hu
  rcases lt_or_eq_of_le h3 with h3 | rfl
  · exact inner_seg (inner_in hx) hy h3 (by linarith)
  · have : (⟨(1 - 0) * x.x + 0 * y.x, (1 - 0) * x.y + 0 * y.y, (1 - 0) * x.z + 0 * y.z⟩ : P3) = x := by apply p3_ext <;> simp
    rw [this]; exact hx

theorem proper_distinct {t : Tri P3} (h : Proper t) : t.a ≠ t.b ∧ t.b ≠ t.c ∧ t.c ≠ t.a := by
  refine ⟨fun e => h ?_, fun e => h ?_, fun e => h ?_⟩ <;>
    (unfold outward; rw [e]; apply p3_ext <;> simp only [] <;> ring)

theorem match_of_mem {t u : Tri P3} (h : t.a ≠ t.b ∧ t.b ≠ t.c ∧ t.c ≠ t.a) (ha : t.a ∈ u.toList) (hb : t.b ∈ u.toList) (hc : t.c ∈ u.toList) : Match t u := by
  obtain ⟨h1, h2, h3⟩ := h
  obtain ⟨a, b, c⟩ := t
  obtain ⟨p, q, r⟩ := u
  simp only [Tri.toList, List.mem_cons, List.not_mem_nil, or_false] at ha hb hc
  simp only [Match, SameTri, Tri.flip, Tri.rot, Tri.mk.injEq]
  simp only [] at h1 h2 h3
  rcases ha with rfl | rfl | rfl <;> rcases hb with rfl | rfl | rfl <;> rcases hc with rfl | rfl | rfl <;> simp_all

theorem inner_common {t u : Tri P3} (ht : Proper t) {x : P3} (hx : Inner t x) (hc : InCommon t u x) : Match t u := by
  obtain ⟨a, b, c, h1, rfl, h3, h4, h5⟩ := hx
  obtain ⟨a', b', c', k1, k2, _, _, _, ka, kb, kc⟩ := hc
  simp only [Weight, if_true] at h3 h4 h5
  have e := wt_combo (ok_of_proper ht) h1
  rw [k2, wt_combo (ok_of_proper ht) k1] at e
  injection e with e1 e2 e3
  exact match_of_mem (proper_distinct ht) (ka (by rw [e1]; exact h3.ne')) (kb (by rw [e2]; exact h4.ne')) (kc (by rw [e3]; exact h5.ne'))

theorem sameTri_cases {t u : Tri P3} (h : SameTri t u) : u = t ∨ u = t.rot ∨ u = t.rot.rot := h

theorem plane_same {t u : Tri P3} (h : SameTri t u) (x : P3) : (plane u).eval x = (plane t).eval x := by
  rcases h with rfl | rfl | rfl
  · rfl
  all_goals simp only [plane, Aff.eval, normal, dot, cross, sub, Tri.rot]; ring

theorem plane_flip (t : Tri P3) (x : P3) : (plane t.flip).eval x = - (plane t).eval x := by
  simp only [plane, Aff.eval, normal, dot, cross, sub, Tri.flip]; ring

theorem in_same {t u : Tri P3} (h : SameTri t u) {x : P3} (hx : In t x) : In u x := by
  obtain ⟨a, b, c, h1, rfl, h3, h4, h5⟩ := hx
  rcases h with rfl | rfl | rfl
  · exact ⟨a, b, c, h1, rfl, h3, h4, h5⟩
  · exact ⟨b, c, a, by linarith, by apply p3_ext <;> simp only [combo, Tri.rot] <;> ring, h4, h5, h3⟩
  · exact ⟨c, a, b, by linarith, by apply p3_ext <;> simp only [combo, Tri.rot] <;> ring, h5, h3, h4⟩

theorem in_flip {t : Tri P3} {x : P3} (hx : In t x) : In t.flip x := by
  obtain ⟨a, b, c, h1, rfl, h3, h4, h5⟩ := hx
  exact ⟨a, c, b, by linarith, by apply p3_ext <;> simp only [combo, Tri.flip] <;> ring, h3, h5, h4⟩

theorem in_match {t u : Tri P3} (h : Match t u) {x : P3} (hx : In t x) : In u x := by
  rcases h with h | h
  · exact in_same h hx
  · exact in_same h (in_flip hx)

theorem inner_same {t u : Tri P3} (h : SameTri t u) {x : P3} (hx : Inner t x) : Inner u x := by
  obtain ⟨a, b, c, h1, rfl, h3, h4, h5⟩ := hx
  rcases h with rfl | rfl | rfl
  · exact ⟨a, b, c, h1, rfl, h3, h4, h5⟩
  · exact ⟨b, c, a, by linarith, by apply p3_ext <;> simp only [combo, Tri.rot] <;> ring, h4, h5, h3⟩
  · exact ⟨c, a, b, by linarith, by apply p3_ext <;> simp only [combo, Tri.rot] <;> ring, h5, h3, h4⟩

theorem inner_flip {t : Tri P3} {x : P3} (hx : Inner t x) : Inner t.flip x := by
  obtain ⟨a, b, c, h1, rfl, h3, h4, h5⟩ := hx
  exact ⟨a, c, b, by linarith, by apply p3_ext <;> simp only [combo, Tri.flip] <;> ring, h3, h5, h4⟩

theorem inner_match {t u : Tri P3} (h : Match t u) {x : P3} (hx : Inner t x) : Inner u x := by
  rcases h with h | h
  · exact inner_same h hx
  · exact inner_same h (inner_flip hx)

theorem match_refl (t : Tri P3) : Match t t := Or.inl (Or.inl rfl)

theorem match_symm {t u : Tri P3} (h : Match t u) : Match u t := by
  obtain ⟨a, b, c⟩ := t
  obtain ⟨p, q, r⟩ := u
  simp only [Match, SameTri, Tri.flip, Tri.rot, Tri.mk.injEq] at *
  rcases h with (⟨rfl, rfl, rfl⟩ | ⟨rfl, rfl, rfl⟩ | ⟨rfl, rfl, rfl⟩) | (⟨rfl, rfl, rfl⟩ | ⟨rfl, rfl, rfl⟩ | ⟨rfl, rfl, rfl⟩) <;> simp

theorem match_trans {t u v : Tri P3} (h : Match t u) (h' : Match u v) : Match t v := by
  obtain ⟨a, b, c⟩ := t
  obtain ⟨p, q, r⟩ := u
  obtain ⟨p', q', r'⟩ := v
  simp only [Match, SameTri, Tri.flip, Tri.rot, Tri.mk.injEq] at *
  rcases h with (⟨rfl, rfl, rfl⟩ | ⟨rfl, rfl, rfl⟩ | ⟨rfl, rfl, rfl⟩) | (⟨rfl, rfl, rfl⟩ | ⟨rfl, rfl, rfl⟩ | ⟨rfl, rfl, rfl⟩) <;>
  rcases h' with (⟨rfl, rfl, rfl⟩ | ⟨rfl, rfl, rfl⟩ | ⟨rfl, rfl, rfl⟩) | (⟨rfl, rfl, rfl⟩ | ⟨rfl, rfl, rfl⟩ | ⟨rfl, rfl, rfl⟩) <;> simp

theorem plane_match {t u : Tri P3} (h : Match t u) (x : P3) : (plane u).eval x = 0 ↔ (plane t).eval x = 0 := by
  rcases h with h | h
  · rw [plane_same h]
  · rw [plane_same h, plane_flip, neg_eq_zero]

theorem match_mem {t u : Tri P3} (h : Match t u) (x : P3) : x ∈ t.toList ↔ x ∈ u.toList := by
  obtain ⟨a, b, c⟩ := t
  obtain ⟨p, q, r⟩ := u
  simp only [Match, SameTri, Tri.flip, Tri.rot, Tri.mk.injEq, Tri.toList, List.mem_cons, List.not_mem_nil, or_false] at *
  rcases h with (⟨rfl, rfl, rfl⟩ | ⟨rfl, rfl, rfl⟩ | ⟨rfl, rfl, rfl⟩) | (⟨rfl, rfl, rfl⟩ | ⟨rfl, rfl, rfl⟩ | ⟨rfl, rfl, rfl⟩) <;> tauto

/-! ## Moving segments that miss the surface -/

theorem tube {ts : List (Tri P3)} (hok : ∀ t ∈ ts, Ok t) {p q : P3} (h : ∀ x, OnSegment p q x → ¬ Surface ts x) :
    ∃ e > 0, ∀ p' q', Near e p' p → Near e q' q → ∀ x, OnSegment p' q' x → ¬ Surface ts x := by
  obtain ⟨e, he, k⟩ := exists_eps (fun (u : Tri P3) e => ∀ p' q', Near e p' p → Near e q' q → ∀ x, OnSegment p' q' x → ¬ In u x)
    (fun _ _ _ _ hle h p' q' n1 n2 => h p' q' (near_mono hle n1) (near_mono hle n2)) ts
    (fun u hu => miss_near (hok u hu) (fun x hx hin => h x hx ⟨u, hu, hin⟩))
  exact ⟨e, he, fun p' q' n1 n2 x hx ⟨u, hu, hin⟩ => k u hu p' q' n1 n2 x hx hin⟩

theorem ball {ts : List (Tri P3)} (hok : ∀ t ∈ ts, Ok t) {p : P3} (h : ¬ Surface ts p) :
    ∃ e > 0, ∀ p' q', Near e p' p → Near e q' p → ∀ x, OnSegment p' q' x → ¬ Surface ts x :=
  tube hok (fun x hx => by rw [onSegment_self hx]; exact h)

/-- Along the inside of a triangle of a complex, on one side of it. -/
theorem strip {W : List (Tri P3)} (hW : Complex W) {t : Tri P3} (ht : t ∈ W) {x g : P3} (hx : Inner t x) (hg : Inner t g) :
    ∃ e > 0, ∀ p q, Near e p x → Near e q g → (∃ s, 0 < s * (plane t).eval p ∧ 0 < s * (plane t).eval q) → ∀ z, OnSegment p q z → ¬ Surface W z := by
  classical
  obtain ⟨e, he, k⟩ := tube (ts := W.filter (fun u => ¬ Match t u)) (p := x) (q := g) (fun u hu => ok_of_proper (hW.proper u (List.mem_of_mem_filter hu))) (by
    intro z hz ⟨u, hu, hin⟩
    rw [List.mem_filter, decide_eq_true_iff] at hu
    have hi := inner_onSegment hx hg hz
    exact hu.2 (inner_common (hW.proper t ht) hi (hW.meet t ht u hu.1 z (inner_in hi) hin)))
  refine ⟨e, he, fun p q hp hq ⟨s, h1, h2⟩ z hz ⟨u, hu, hin⟩ => ?_⟩
  by_cases hm : Match t u
  · exact ne_on_segment (plane t) s h1 h2 hz ((plane_match hm z).1 (plane_in hin))
  · exact k p q hp hq z hz ⟨u, by rw [List.mem_filter, decide_eq_true_iff]; exact ⟨hu, hm⟩, hin⟩

/-! ## Walks -/

/-- A number that is in no position of a finite list, between given bounds. -/
theorem gap (l : List ℚ) (c : ℚ) : ∃ d > 0, ∀ s ∈ l, s ≠ c → s < c - d ∨ c + d < s := by
  induction l with
  | nil => exact ⟨1, one_pos, by simp⟩
  | cons b l ih =>
    obtain ⟨d, hd, h⟩ := ih
    by_cases hb : b = c
    · refine ⟨d, hd, fun s hs hne => ?_⟩
      rcases List.mem_cons.1 hs with rfl | hs
      · exact absurd hb hne
      · exact h s hs hne
    · have hp : 0 < |b - c| / 2 := by have := abs_pos.2 (sub_ne_zero.2 hb); linarith
      refine ⟨min d (|b - c| / 2), lt_min hd hp, fun s hs hne => ?_⟩
      have m1 := min_le_left d (|b - c| / 2)
      have m2 := min_le_right d (|b - c| / 2)
      rcases List.mem_cons.1 hs with rfl | hs
      · rcases lt_or_gt_of_ne hb with h' | h'
        · left; rw [abs_of_neg (by linarith)] at *; linarith
        · right; rw [abs_of_pos (by linarith)] at *; linarith
      · rcases h s hs hne with h | h
        · left; linarith
        · right; linarith

/-- On a line: what does not change between the positions of a list and does not change at these positions does not change. -/
theorem walk_line (U : ℚ → Prop) (bad : List ℚ) (good : ∀ a b, 0 ≤ a → a ≤ b → b ≤ 1 → (∀ s ∈ bad, ¬ (a ≤ s ∧ s ≤ b)) → (U a ↔ U b))
    (cross : ∀ c ∈ bad, 0 < c → c < 1 → ∃ d > 0, ∀ s, 0 < s → s ≤ d → (U (c - s) ↔ U (c + s))) :
    ∀ (n : Nat) (a b : ℚ), 0 ≤ a → a ≤ b → b ≤ 1 → a ∉ bad → b ∉ bad → (bad.filter (fun s => decide (a ≤ s ∧ s ≤ b))).length ≤ n → (U a ↔ U b) := by
  intro n
  induction n with
  | zero =>
    intro a b h0 hab h1 ha hb hn
    refine good a b h0 hab h1 (fun s hs hin => ?_)
    have : s ∈ bad.filter (fun s => decide (a ≤ s ∧ s ≤ b)) := by rw [List.mem_filter, decide_eq_true_iff]; exact ⟨hs, hin⟩
    rw [List.length_eq_zero_iff.1 (Nat.le_zero.1 hn)] at this
    simp at this
  | succ n ih =>
    intro a b h0 hab h1 ha hb hn
    by_cases hc : ∃ c ∈ bad, a ≤ c ∧ c ≤ b
    · obtain ⟨c, hc, hac, hcb⟩ := hc
      have hac : a < c := lt_of_le_of_ne hac (fun h => ha (h ▸ hc))
      have hcb : c < b := lt_of_le_of_ne hcb (fun h => hb (h ▸ hc))
      obtain ⟨d, hd, hx⟩ := cross c hc (by linarith) (by linarith)
      obtain ⟨g, hg, hgap⟩ := gap (a :: b :: bad) c
      generalize hs : min d g = s
      have hs0 : 0 < s := by rw [← hs]; exact lt_min hd hg
      have hsg : s ≤ g := by rw [← hs]; exact min_le_right _ _
      have ga := hgap a (by simp) hac.ne
      have gb := hgap b (by simp) hcb.ne'
      have las : a < c - s := by rcases ga with h | h <;> linarith
      have lsb : c + s < b := by rcases gb with h | h <;> linarith
      have n1 : c - s ∉ bad := fun h => by
        rcases hgap (c - s) (by simp [h]) (by linarith) with h | h <;> linarith
      have n2 : c + s ∉ bad := fun h => by
        rcases hgap (c + s) (by simp [h]) (by linarith) with h | h <;> linarith
      have sub : ∀ u v, a ≤ u → v ≤ b → ¬ (u ≤ c ∧ c ≤ v) → (bad.filter (fun s => decide (u ≤ s ∧ s ≤ v))).length ≤ n := by
        intro u v hu hv hno
        have hlt : (bad.filter (fun s => decide (u ≤ s ∧ s ≤ v))).length < (bad.filter (fun s => decide (a ≤ s ∧ s ≤ b))).length := by
          rw [← List.countP_eq_length_filter, ← List.countP_eq_length_filter]
          have e : bad.countP (fun s => decide (u ≤ s ∧ s ≤ v)) = (bad.filter (fun s => decide (a ≤ s ∧ s ≤ b))).countP (fun s => decide (u ≤ s ∧ s ≤ v)) := by
            rw [List.countP_filter]
            apply List.countP_congr
            intro x _
            simp only [Bool.and_eq_true, decide_eq_true_iff]
            constructor
            · intro h; exact ⟨h, by linarith, by linarith⟩
            · intro h; exact h.1
          rw [e, List.countP_eq_length_filter (p := fun s => decide (a ≤ s ∧ s ≤ b))]
          apply lt_of_le_of_ne List.countP_le_length
          intro h
          rw [List.countP_eq_length] at h
          have := h c (by rw [List.mem_filter, decide_eq_true_iff]; exact ⟨hc, hac.le, hcb.le⟩)
          exact hno (decide_eq_true_iff.1 this)
        omega
      exact (ih a (c - s) h0 las.le (by linarith) ha n1 (sub _ _ (le_refl _) (by linarith) (by rintro ⟨_, h⟩; linarith))).trans
        ((hx s hs0 (by rw [← hs]; exact min_le_left _ _)).trans
          (ih (c + s) b (by linarith) lsb.le h1 n2 hb (sub _ _ (by linarith) (le_refl _) (by rintro ⟨h, _⟩; linarith))))
    · exact good a b h0 hab h1 (fun s hs hin => hc ⟨s, hs, hin⟩)

theorem seg_onSegment {y z x : P3} {a b : ℚ} (ha : 0 ≤ a) (hab : a ≤ b) (hb : b ≤ 1) (h : OnSegment (seg (1 - a) a y z) (seg (1 - b) b y z) x) :
    ∃ s, a ≤ s ∧ s ≤ b ∧ x = seg (1 - s) s y z := by
  obtain ⟨u, v, h1, h2, h3, rfl⟩ := h
  have hu : u = 1 - v := by linarith
  subst hu
  refine ⟨(1 - v) * a + v * b, by nlinarith, by nlinarith, ?_⟩
  apply p3_ext <;> simp only [seg] <;> ring

/-- A segment whose ends are on no triangle, not in the plane of a triangle and not through an edge. -/
structure Generic (W : List (Tri P3)) (y z : P3) : Prop where
  left : ¬ Surface W y
  right : ¬ Surface W z
  cross : ∀ t ∈ W, (plane t).eval y ≠ (plane t).eval z
  inner : ∀ t ∈ W, ∀ x, OnSegment y z x → In t x → Inner t x

theorem generic_near {W : List (Tri P3)} (hok : ∀ t ∈ W, Ok t) {y : P3} (hy : ¬ Surface W y) (z : P3) {e : ℚ} (he : 0 < e) : ∃ z', Near e z' z ∧ Generic W y z' := by
  classical
  have fs : ∀ t : Tri P3, ∃ l : List Aff, (Ok t → ∀ f ∈ l, f.n ≠ ⟨0, 0, 0⟩) ∧ ∀ z', (∀ f ∈ l, f.eval z' ≠ 0) →
      (plane t).eval z' ≠ 0 ∧ (plane t).eval y ≠ (plane t).eval z' ∧ (¬ In t y → ∀ x, OnSegment y z' x → In t x → Inner t x) := by
    intro t
    obtain ⟨f1, n1, p1, a1, b1⟩ := exists_plane y t.a t.b
    obtain ⟨f2, n2, p2, a2, b2⟩ := exists_plane y t.b t.c
    obtain ⟨f3, n3, p3, a3, b3⟩ := exists_plane y t.c t.a
    refine ⟨[plane t, ⟨(plane t).n, (plane t).k - (plane t).eval y⟩, f1, f2, f3], ?_, ?_⟩
    · intro ht f hf
      simp only [List.mem_cons, List.not_mem_nil, or_false] at hf
      rcases hf with rfl | rfl | rfl | rfl | rfl
      · exact plane_n ht
      · exact plane_n ht
      · exact n1
      · exact n2
      · exact n3
    · intro z' hz
      refine ⟨hz _ (by simp), ?_, ?_⟩
      · have := hz ⟨(plane t).n, (plane t).k - (plane t).eval y⟩ (by simp)
        intro h
        apply this
        have e : (⟨(plane t).n, (plane t).k - (plane t).eval y⟩ : Aff).eval z' = (plane t).eval z' - (plane t).eval y := by
          simp only [Aff.eval]; ring
        rw [e, h, sub_self]
      · intro hyt x hx hin
        have key : ∀ f : Aff, f.eval z' ≠ 0 → f.eval y = 0 → ∀ a b, f.eval a = 0 → f.eval b = 0 → OnSegment a b x → False := by
          intro f fz fy a b fa fb hab
          obtain ⟨u, v, h1, h2, h3, rfl⟩ := hab
          have e1 : f.eval (seg u v a b) = 0 := by rw [eval_seg f h1, fa, fb]; ring
          obtain ⟨u', v', g1, g2, g3, g4⟩ := hx
          have e2 : f.eval (seg u' v' y z') = u' * f.eval y + v' * f.eval z' := eval_seg f g1 _ _
          have e3 : seg u v a b = seg u' v' y z' := g4
          rw [← e3, e1, fy, mul_zero, zero_add] at e2
          have hv : v' = 0 := (mul_eq_zero.1 e2.symm).resolve_right fz
          have hu : u' = 1 := by linarith
          apply hyt
          have : y = seg u v a b := by rw [e3, hv, hu]; apply p3_ext <;> simp [seg]
          rw [this]; exact hin
        rcases inner_or hin with h | h | h | h
        · exact h
        · exact (key f1 (hz _ (by simp)) p1 _ _ a1 b1 h).elim
        · exact (key f2 (hz _ (by simp)) p2 _ _ a2 b2 h).elim
        · exact (key f3 (hz _ (by simp)) p3 _ _ a3 b3 h).elim
  choose F hF1 hF2 using fs
  obtain ⟨z', hz', h⟩ := perturb (W.flatMap F) (by
    intro f hf
    obtain ⟨t, ht, hf⟩ := List.mem_flatMap.1 hf
    exact hF1 t (hok t ht) f hf) z he
  have h' : ∀ t ∈ W, _ := fun t ht => hF2 t z' (fun f hf => h f (List.mem_flatMap.2 ⟨t, ht, hf⟩))
  exact ⟨z', hz', hy, fun ⟨t, ht, hin⟩ => (h' t ht).1 (plane_in hin), fun t ht => (h' t ht).2.1, fun t ht => (h' t ht).2.2 (fun hin => hy ⟨t, ht, hin⟩)⟩

/-- **Along a generic segment** nothing changes that does not change along segments off the surface and across inner points of triangles on the segment. -/
theorem walk {K : P3 → Prop} (hK : Zone K) {W : List (Tri P3)} {y z : P3} (hy : K y) (hz : K z) (hg : Generic W y z) (V : P3 → Prop)
    (const : ∀ p q, K p → K q → (∀ x, OnSegment p q x → ¬ Surface W x) → (V p ↔ V q))
    (cross : ∀ t ∈ W, ∀ x, OnSegment y z x → Inner t x → ∃ e > 0, ∀ p q, Near e p x → Near e q x → (plane t).eval p ≠ 0 → (plane t).eval q ≠ 0 → (V p ↔ V q)) : V y ↔ V z := by
  classical
  let crit (t : Tri P3) : ℚ := (plane t).eval y / ((plane t).eval y - (plane t).eval z)
  let bad : List ℚ := (W.map crit).filter (fun s => decide (Surface W (seg (1 - s) s y z)))
  have sol : ∀ t ∈ W, ∀ s, (plane t).eval (seg (1 - s) s y z) = 0 → s = crit t := by
    intro t ht s h
    rw [eval_seg _ (by ring)] at h
    have hne := sub_ne_zero.2 (hg.cross t ht)
    show s = (plane t).eval y / ((plane t).eval y - (plane t).eval z)
    rw [eq_div_iff hne]; linarith
  have memb : ∀ s, Surface W (seg (1 - s) s y z) → s ∈ bad := by
    intro s hs
    obtain ⟨t, ht, hin⟩ := id hs
    rw [List.mem_filter, decide_eq_true_iff]
    refine ⟨List.mem_map.2 ⟨t, ht, (sol t ht s (plane_in hin)).symm⟩, hs⟩
  have e0 : seg (1 - 0) 0 y z = y := by apply p3_ext <;> simp [seg]
  have e1 : seg (1 - 1) 1 y z = z := by apply p3_ext <;> simp [seg]
  have hw := walk_line (fun s => V (seg (1 - s) s y z)) bad
    (by
      intro a b ha hab hb hs
      apply const _ _ (hK.convex y z _ hy hz ⟨1 - a, a, by ring, by linarith, ha, rfl⟩) (hK.convex y z _ hy hz ⟨1 - b, b, by ring, by linarith, by linarith, rfl⟩)
      intro x hx hsur
      obtain ⟨s, h1, h2, rfl⟩ := seg_onSegment ha hab hb hx
      exact hs s (memb s hsur) ⟨h1, h2⟩)
    (by
      intro c hc h0 h1
      rw [List.mem_filter, decide_eq_true_iff] at hc
      obtain ⟨t, ht, hin⟩ := hc.2
      have hon : OnSegment y z (seg (1 - c) c y z) := ⟨1 - c, c, by ring, by linarith, h0.le, rfl⟩
      have hinn := hg.inner t ht _ hon hin
      obtain ⟨e, he, hx⟩ := cross t ht _ hon hinn
      obtain ⟨d, hd, _, hsh⟩ := shift_near he (sub z y)
      refine ⟨d, hd, fun s hs hsd => ?_⟩
      have hc' := sol t ht c (plane_in hin)
      have k : ∀ s' : ℚ, s' ≠ 0 → -d ≤ s' → s' ≤ d → Near e (seg (1 - (c + s')) (c + s') y z) (seg (1 - c) c y z) ∧ (plane t).eval (seg (1 - (c + s')) (c + s') y z) ≠ 0 := by
        intro s' hs' l1 l2
        constructor
        · have := hsh s' l1 l2 (seg (1 - c) c y z)
          have e : shift (seg (1 - c) c y z) s' (sub z y) = seg (1 - (c + s')) (c + s') y z := by apply p3_ext <;> simp only [shift, seg, sub] <;> ring
          rwa [e] at this
        · intro h
          have := sol t ht _ h
          apply hs'; linarith
      obtain ⟨k1, k2⟩ := k (-s) (by linarith) (by linarith) (by linarith)
      obtain ⟨k3, k4⟩ := k s (by linarith) (by linarith) (by linarith)
      have := hx _ _ k1 k3 k2 k4
      rwa [← sub_eq_add_neg] at this)
    _ 0 1 (le_refl _) (by norm_num) (le_refl _)
    (by intro h; rw [List.mem_filter, decide_eq_true_iff, e0] at h; exact hg.left h.2)
    (by intro h; rw [List.mem_filter, decide_eq_true_iff, e1] at h; exact hg.right h.2) (le_refl _)
  have hw : V (seg (1 - 0) 0 y z) ↔ V (seg (1 - 1) 1 y z) := hw
  rwa [e0, e1] at hw

end Kigumi.Space

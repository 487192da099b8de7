import Verif.Proofs.Affine
import Verif.Proofs.MeetOnce
import Verif.Spec.Zone

/-! # A segment from a point to the surface decides the side of the point -/
namespace Kigumi.Side
open Kigumi Geo Spec.Triangles Spec.Side FaceFace

/-- One bound for finitely many conditions. -/
theorem exists_eps {α : Type} (P : α → ℚ → Prop) (mono : ∀ a e e', 0 < e → e ≤ e' → P a e' → P a e) (l : List α) (h : ∀ a ∈ l, ∃ e > 0, P a e) : ∃ e > 0, ∀ a ∈ l, P a e := by
  induction l with
  | nil => exact ⟨1, by norm_num, by simp⟩
  | cons a l ih =>
    obtain ⟨e1, h1, k1⟩ := h a List.mem_cons_self
    obtain ⟨e2, h2, k2⟩ := ih (fun b hb => h b (List.mem_cons_of_mem _ hb))
    refine ⟨min e1 e2, lt_min h1 h2, fun b hb => ?_⟩
    rcases List.mem_cons.1 hb with rfl | hb
    · exact mono _ _ _ (lt_min h1 h2) (min_le_left _ _) k1
    · exact mono _ _ _ (lt_min h1 h2) (min_le_right _ _) (k2 b hb)

theorem near_trans {e e' : ℚ} {x y z : P3} (h : Near e x y) (h' : Near e' y z) : Near (e + e') x z := by
  obtain ⟨h1, h2, h3, h4, h5, h6⟩ := h
  obtain ⟨g1, g2, g3, g4, g5, g6⟩ := h'
  exact ⟨by linarith, by linarith, by linarith, by linarith, by linarith, by linarith⟩

/-- Small multiples of a vector. -/
theorem shift_near {e : ℚ} (he : 0 < e) (v : P3) : ∃ d > 0, d ≤ 1 ∧ ∀ s, -d ≤ s → s ≤ d → ∀ x, Near e (shift x s v) x := by
  generalize hM : |v.x| + |v.y| + |v.z| + 1 = M
  have hx := abs_nonneg v.x; have hy := abs_nonneg v.y; have hz := abs_nonneg v.z
  have hM1 : 0 < M := by linarith
  have hd : 0 < e / M := div_pos he hM1
  refine ⟨min (e / M) 1, lt_min hd one_pos, min_le_right _ _, fun s h1 h2 x => ?_⟩
  have hs : |s| ≤ e / M := abs_le.2 ⟨by linarith [min_le_left (e / M) 1], by linarith [min_le_left (e / M) 1]⟩
  have k : ∀ u : ℚ, |u| ≤ M → - e ≤ s * u ∧ s * u ≤ e := by
    intro u hu
    have : |s * u| ≤ e := by
      rw [abs_mul]
      calc |s| * |u| ≤ e / M * M := mul_le_mul hs hu (abs_nonneg _) hd.le
        _ = e := div_mul_cancel₀ _ hM1.ne'
    exact abs_le.1 this
  obtain ⟨a1, a2⟩ := k v.x (by linarith)
  obtain ⟨b1, b2⟩ := k v.y (by linarith)
  obtain ⟨c1, c2⟩ := k v.z (by linarith)
  simp only [Near, shift]
  exact ⟨by linarith, by linarith, by linarith, by linarith, by linarith, by linarith⟩

theorem seg_near {e : ℚ} (he : 0 < e) (x y : P3) : ∃ k > 0, k ≤ 1 ∧ Near e (seg (1 - k) k x y) x := by
  obtain ⟨d, hd, h1, h⟩ := shift_near he (sub y x)
  refine ⟨d, hd, h1, ?_⟩
  have := h d (by linarith) (le_refl _) x
  have e : seg (1 - d) d x y = shift x d (sub y x) := by apply p3_ext <;> simp only [seg, shift, sub] <;> ring
  rwa [e]

theorem in_seg {t : Tri P3} (h : Ok t) {x y : P3} (hx : In t x) (hy : In t y) {k : ℚ} (h0 : 0 ≤ k) (h1 : k ≤ 1) : In t (seg (1 - k) k x y) := by
  rw [in_iff h] at *
  intro f hf
  rw [eval_seg f (by ring)]
  have := hx f hf; have := hy f hf
  have : 0 ≤ 1 - k := by linarith
  positivity

theorem all_near_ne (l : List Aff) {x : P3} (h : ∀ f ∈ l, f.eval x ≠ 0) : ∃ e > 0, ∀ f ∈ l, ∀ y, Near e y x → f.eval y ≠ 0 :=
  exists_eps (fun (f : Aff) e => ∀ y, Near e y x → f.eval y ≠ 0) (fun _ _ _ _ hle h y hy => h y (near_mono hle hy)) l (fun f hf => eval_near_ne f (h f hf))

theorem in_a (t : Tri P3) : In t t.a := ⟨1, 0, 0, by ring, by apply p3_ext <;> simp [combo], by norm_num, le_refl _, le_refl _⟩
theorem in_b (t : Tri P3) : In t t.b := ⟨0, 1, 0, by ring, by apply p3_ext <;> simp [combo], le_refl _, by norm_num, le_refl _⟩
theorem in_c (t : Tri P3) : In t t.c := ⟨0, 0, 1, by ring, by apply p3_ext <;> simp [combo], le_refl _, le_refl _, by norm_num⟩

/-- A point of a triangle at which none of finitely many functions is zero. -/
theorem avoid {t : Tri P3} (ht : Ok t) (l : List Aff) (h : ∀ f ∈ l, ∃ z, In t z ∧ f.eval z ≠ 0) : ∃ y, In t y ∧ ∀ f ∈ l, f.eval y ≠ 0 := by
  induction l with
  | nil => exact ⟨t.a, in_a t, by simp⟩
  | cons f l ih =>
    obtain ⟨y, hy, hl⟩ := ih (fun g hg => h g (List.mem_cons_of_mem _ hg))
    by_cases hf : f.eval y = 0
    · obtain ⟨z, hz, fz⟩ := h f List.mem_cons_self
      obtain ⟨e, he, hn⟩ := all_near_ne l hl
      obtain ⟨k, hk, hk1, hnear⟩ := seg_near he y z
      refine ⟨seg (1 - k) k y z, in_seg ht hy hz hk.le hk1, fun g hg => ?_⟩
      rcases List.mem_cons.1 hg with rfl | hg
      · rw [eval_seg g (by ring), hf, mul_zero, zero_add]
        exact mul_ne_zero hk.ne' fz
      · exact hn g hg _ hnear
    · refine ⟨y, hy, fun g hg => ?_⟩
      rcases List.mem_cons.1 hg with rfl | hg
      · exact hf
      · exact hl g hg

/-- The same close to a point where they are zero. -/
theorem avoid_near {t : Tri P3} (ht : Ok t) (l : List Aff) {q : P3} (hq : In t q) (h : ∀ f ∈ l, f.eval q = 0 ∧ ∃ z, In t z ∧ f.eval z ≠ 0) {e : ℚ} (he : 0 < e) :
    ∃ y, In t y ∧ Near e y q ∧ ∀ f ∈ l, f.eval y ≠ 0 := by
  obtain ⟨y, hy, hl⟩ := avoid ht l (fun f hf => (h f hf).2)
  obtain ⟨k, hk, hk1, hnear⟩ := seg_near he q y
  refine ⟨_, in_seg ht hq hy hk.le hk1, hnear, fun f hf => ?_⟩
  rw [eval_seg f (by ring), (h f hf).1, mul_zero, zero_add]
  exact mul_ne_zero hk.ne' (hl f hf)

theorem plane_in {t : Tri P3} {x : P3} (h : In t x) : (plane t).eval x = 0 := by
  obtain ⟨u, v, w, hs, rfl, _⟩ := h
  rw [eval_plane', det_combo_first u v w hs, neg_zero]

/-- Two triangles in the same plane. -/
theorem same_plane {t u : Tri P3} (ht : Ok t) (hu : Ok u) (h : ∀ z, In t z → (plane u).eval z = 0) : ∃ k : ℚ, k ≠ 0 ∧ ∀ x, (plane u).eval x = k * (plane t).eval x := by
  have ha := h _ (in_a t); have hb := h _ (in_b t); have hc := h _ (in_c t)
  generalize hN : normal u.a u.b u.c = N
  have hlin : ∀ x, (plane u).eval x = dot N (sub x t.a) := by
    intro x
    have : (plane u).eval x = (plane u).eval x - (plane u).eval t.a := by rw [ha]; ring
    rw [this]; simp only [plane, Aff.eval, hN, dot, sub]; ring
  rw [hlin] at hb hc
  have hcr : dot (cross N (normal t.a t.b t.c)) (cross N (normal t.a t.b t.c)) = 0 := by
    have e : cross N (normal t.a t.b t.c) = ⟨dot N (sub t.c t.a) * (sub t.b t.a).x - dot N (sub t.b t.a) * (sub t.c t.a).x,
        dot N (sub t.c t.a) * (sub t.b t.a).y - dot N (sub t.b t.a) * (sub t.c t.a).y, dot N (sub t.c t.a) * (sub t.b t.a).z - dot N (sub t.b t.a) * (sub t.c t.a).z⟩ := by
      unfold normal
      generalize sub t.b t.a = B; generalize sub t.c t.a = C
      apply p3_ext <;> simp only [cross, dot] <;> ring
    rw [e, hb, hc]; simp [dot]
  obtain ⟨k, hk⟩ := parallel ht hcr
  refine ⟨k, ?_, ?_⟩
  · rintro rfl
    apply hu
    rw [hN, hk]; simp [dot]
  · intro x
    rw [hlin, hk]
    simp only [plane, Aff.eval, dot, sub]; ring

theorem ne_on_segment (f : Aff) {p q x : P3} (s : ℚ) (hp : 0 < s * f.eval p) (hq : 0 < s * f.eval q) (h : OnSegment p q x) : f.eval x ≠ 0 := by
  obtain ⟨u, v, h4, h5, h6, rfl⟩ := h
  have e : f.eval (seg u v p q) = u * f.eval p + v * f.eval q := eval_seg f h4 p q
  intro h0
  have h0 : f.eval (seg u v p q) = 0 := h0
  rw [e] at h0
  have hs : u * (s * f.eval p) + v * (s * f.eval q) = 0 := by linear_combination s * h0
  rcases lt_or_eq_of_le h5 with h5 | h5
  · have := mul_pos h5 hp; have := mul_nonneg h6 hq.le; linarith
  · have hv : v = 1 := by linarith
    rw [← h5, hv] at hs; linarith

theorem left_end (p q : P3) : OnSegment p q p := ⟨1, 0, by ring, by norm_num, le_refl _, p3_ext (by simp) (by simp) (by simp)⟩
theorem right_end (p q : P3) : OnSegment p q q := ⟨0, 1, by ring, le_refl _, by norm_num, p3_ext (by simp) (by simp) (by simp)⟩
theorem onSegment_self {p x : P3} (h : OnSegment p p x) : x = p := by
  obtain ⟨s, t, h1, _, _, rfl⟩ := h
  apply p3_ext <;> simp only []
  · linear_combination p.x * h1
  · linear_combination p.y * h1
  · linear_combination p.z * h1

end Kigumi.Side

namespace Kigumi.Space
open Kigumi Geo Spec.Triangles Spec.Side FaceFace
open Kigumi.Side (seg_near)

theorem inner_in {t : Tri P3} {x : P3} (h : Inner t x) : In t x := by
  obtain ⟨a, b, c, h1, h2, h3, h4, h5⟩ := h
  simp only [Weight, if_true] at h3 h4 h5
  exact ⟨a, b, c, h1, h2, h3.le, h4.le, h5.le⟩

/-- The centroid. -/
def centre (t : Tri P3) : P3 := combo (1 / 3) (1 / 3) (1 / 3) t.a t.b t.c

theorem inner_centre (t : Tri P3) : Inner t (centre t) := ⟨1 / 3, 1 / 3, 1 / 3, by norm_num, rfl, by simp [Weight], by simp [Weight], by simp [Weight]⟩

/-- Towards an inner point all points are inner. -/
theorem inner_seg {t : Tri P3} {x y : P3} (hx : In t x) (hy : Inner t y) {k : ℚ} (h0 : 0 < k) (h1 : k ≤ 1) : Inner t (seg (1 - k) k x y) := by
  obtain ⟨a, b, c, g1, rfl, g3, g4, g5⟩ := hx
  obtain ⟨a', b', c', k1, rfl, k3, k4, k5⟩ := hy
  simp only [Weight, if_true] at k3 k4 k5
  have hk : 0 ≤ 1 - k := by linarith
  refine ⟨(1 - k) * a + k * a', (1 - k) * b + k * b', (1 - k) * c + k * c', by linear_combination (1 - k) * g1 + k * k1, ?_, ?_, ?_, ?_⟩
  · apply p3_ext <;> simp only [combo, seg] <;> ring
  all_goals
    simp only [Weight, if_true]
    positivity

/-- Close to every point of a triangle there are inner points. -/
theorem inner_near {t : Tri P3} {x : P3} (h : In t x) {e : ℚ} (he : 0 < e) : ∃ y, Inner t y ∧ Near e y x := by
  obtain ⟨k, hk, hk1, hn⟩ := seg_near he x (centre t)
  exact ⟨_, inner_seg h (inner_centre t) hk hk1, hn⟩

end Kigumi.Space

namespace Kigumi.Side
open Kigumi Geo Spec.Triangles Spec.Side FaceFace
open Kigumi.Space (inner_in inner_near)

/-- **The side of a point.**  A segment from a point off the surface to a point of a triangle, such that every other triangle misses the segment or has it in its plane, decides the side,
if the point is off the plane of the triangle or triangles do not overlap. -/
theorem decide_side {K : P3 → Prop} (hK : Zone K) {ts : List (Tri P3)} (hw : StaysIn K ts) (hok : ∀ t ∈ ts, Ok t) {χ : P3 → Prop} (hb : BoundsIn K ts χ) {i : Nat} {t : Tri P3} {p q : P3} (ht : ts[i]? = some t)
    (hpK : K p)
    (hp : ¬ Surface ts p) (hq : In t q)
    (hother : ∀ j u, ts[j]? = some u → j ≠ i → (∀ x, OnSegment p q x → ¬ In u x) ∨ ((plane u).eval p = 0 ∧ (plane u).eval q = 0))
    (hthin : (plane t).eval p ≠ 0 ∨ Thin ts) (s : ℚ) (hs : s = 1 ∨ s = -1) (hsp : 0 ≤ s * (plane t).eval p) : χ p ↔ s = -1 := by
  classical
  have htm : t ∈ ts := List.mem_of_getElem? ht
  have okt : Ok t := hok t htm
  -- the triangles that miss the segment still do so after small moves, and so does the starting point
  obtain ⟨e0, he0, far⟩ := exists_eps (fun (u : Tri P3) e => ∀ p' q', Near e p' p → Near e q' q → (∀ x, OnSegment p q x → ¬ In u x) → ∀ x, OnSegment p' q' x → ¬ In u x)
    (fun _ _ _ _ hle h p' q' n1 n2 => h p' q' (near_mono hle n1) (near_mono hle n2)) ts (fun u hu => by
      by_cases hm : ∀ x, OnSegment p q x → ¬ In u x
      · obtain ⟨e, he, h⟩ := miss_near (hok u hu) hm
        exact ⟨e, he, fun p' q' n1 n2 _ => h p' q' n1 n2⟩
      · exact ⟨1, one_pos, fun _ _ _ _ h => absurd h hm⟩)
  obtain ⟨e1, he1, start⟩ := exists_eps (fun (u : Tri P3) e => ∀ p', Near e p' p → ∀ x, OnSegment p p' x → ¬ In u x)
    (fun _ _ _ _ hle h p' n1 => h p' (near_mono hle n1)) ts (fun u hu => by
      obtain ⟨e, he, h⟩ := miss_near (hok u hu) (p := p) (q := p) (fun x hx hin => hp ⟨u, hu, by rw [← onSegment_self hx]; exact hin⟩)
      exact ⟨e, he, fun p' n1 => h p p' (near_refl he.le _) n1⟩)
  obtain ⟨eK, heK, hKp⟩ := hK.near p hpK
  have he : 0 < min (min e0 e1) eK := lt_min (lt_min he0 he1) heK
  generalize hE : min (min e0 e1) eK = E at he
  have hE0 : E ≤ e0 := by rw [← hE]; exact le_trans (min_le_left _ _) (min_le_left _ _)
  have hE1 : E ≤ e1 := by rw [← hE]; exact le_trans (min_le_left _ _) (min_le_right _ _)
  have hEK : E ≤ eK := by rw [← hE]; exact min_le_right _ _
  -- planes through the segment that cut the triangle
  generalize hL : (ts.map plane).filter (fun f => decide (f.eval q = 0 ∧ ∃ z, In t z ∧ f.eval z ≠ 0)) = L
  have memL : ∀ f, f ∈ L ↔ (∃ u ∈ ts, plane u = f) ∧ f.eval q = 0 ∧ ∃ z, In t z ∧ f.eval z ≠ 0 := by
    intro f; rw [← hL, List.mem_filter, List.mem_map, decide_eq_true_iff]
  -- the point of the triangle
  obtain ⟨x, hx, hnx, hxK, hLx⟩ : ∃ x, Singly ts i x ∧ Near (E / 2) x q ∧ K x ∧ ∀ f ∈ L, f.eval x ≠ 0 := by
    obtain ⟨y, hyi, hny, hLy⟩ : ∃ y, Inner t y ∧ Near (E / 4) y q ∧ ∀ f ∈ L, f.eval y ≠ 0 := by
      obtain ⟨y, hy, hny, hLy⟩ := avoid_near okt L hq (fun f hf => ((memL f).1 hf).2) (e := E / 8) (by linarith)
      obtain ⟨e2, he2, hne⟩ := all_near_ne L hLy
      obtain ⟨y', hi', hn'⟩ := inner_near hy (lt_min he2 (show (0 : ℚ) < E / 8 by linarith))
      exact ⟨y', hi', near_mono (by linarith) (near_trans (near_mono (min_le_right _ _) hn') hny), fun f hf => hne f hf _ (near_mono (min_le_left _ _) hn')⟩
    have hy := inner_in hyi
    have hyK := hw t htm y hyi
    rcases hthin with hpl | hth
    · refine ⟨y, ⟨t, ht, hy, ?_⟩, near_mono (by linarith) hny, hyK, hLy⟩
      intro j u hu hin
      by_contra hji
      have hum : u ∈ ts := List.mem_of_getElem? hu
      rcases hother j u hu hji with hmiss | ⟨up, uq⟩
      · exact far u hum p y (near_refl he0.le _) (near_mono (by linarith) hny) hmiss y (right_end _ _) hin
      · by_cases hz : ∃ z, In t z ∧ (plane u).eval z ≠ 0
        · exact hLy (plane u) ((memL _).2 ⟨⟨u, hum, rfl⟩, uq, hz⟩) (plane_in hin)
        · push Not at hz
          obtain ⟨k, hk, hku⟩ := same_plane okt (hok u hum) hz
          rw [hku] at up
          exact hpl ((mul_eq_zero.1 up).resolve_left hk)
    · obtain ⟨e2, he2, hne⟩ := all_near_ne L hLy
      obtain ⟨e3, he3, hyN⟩ := hK.near y hyK
      obtain ⟨x, hx1, hx2⟩ := hth i t y (min (min e2 e3) (E / 4)) ht hy (lt_min (lt_min he2 he3) (by linarith))
      refine ⟨x, hx2, ?_, hyN x (near_mono (le_trans (min_le_left _ _) (min_le_right _ _)) hx1), fun f hf => hne f hf x (near_mono (le_trans (min_le_left _ _) (min_le_left _ _)) hx1)⟩
      exact near_mono (by linarith [min_le_right (min e2 e3) (E / 4)]) (near_trans hx1 hny)
  have hxt : In t x := by
    obtain ⟨t', ht', hin, _⟩ := hx
    rw [ht] at ht'; cases ht'; exact hin
  -- the step off the triangle
  obtain ⟨ej, hej, jump⟩ := hb.jump i t x ht hx hxK
  obtain ⟨e2', he2', hne'⟩ := all_near_ne L hLx
  obtain ⟨ex, hex, hxN⟩ := hK.near x hxK
  obtain ⟨e2, he2, hne, hqN⟩ : ∃ e2 > 0, (∀ f ∈ L, ∀ y, Near e2 y x → f.eval y ≠ 0) ∧ ∀ y, Near e2 y x → K y :=
    ⟨min e2' ex, lt_min he2' hex, fun f hf y hy => hne' f hf y (near_mono (min_le_left _ _) hy), fun y hy => hxN y (near_mono (min_le_right _ _) hy)⟩
  obtain ⟨d, hd, _, hsh⟩ := shift_near (e := min (E / 2) e2) (lt_min (by linarith) he2) (outward t)
  generalize hD : min d ej = D
  have hD0 : 0 < D := by rw [← hD]; exact lt_min hd hej
  have hDd : D ≤ d := by rw [← hD]; exact min_le_left _ _
  have hDj : D ≤ ej := by rw [← hD]; exact min_le_right _ _
  have hsD : -d ≤ s * D ∧ s * D ≤ d := by rcases hs with rfl | rfl <;> constructor <;> linarith
  generalize hq' : shift x (s * D) (outward t) = q'
  generalize hp' : (⟨p.x + (q'.x - q.x), p.y + (q'.y - q.y), p.z + (q'.z - q.z)⟩ : P3) = p'
  have nq : Near (min (E / 2) e2) q' x := by rw [← hq']; exact hsh _ hsD.1 hsD.2 x
  have nqq : Near E q' q := near_mono (by linarith) (near_trans (near_mono (min_le_left _ _) nq) hnx)
  have npp : Near E p' p := by
    obtain ⟨h1, h2, h3, h4, h5, h6⟩ := nqq
    rw [← hp']
    exact ⟨by simp only []; linarith, by simp only []; linarith, by simp only []; linarith, by simp only []; linarith, by simp only []; linarith, by simp only []; linarith⟩
  have move : ∀ f : Aff, f.eval p' - f.eval p = f.eval q' - f.eval q := by
    intro f; rw [← hp']; simp only [Aff.eval, dot]; ring
  have tq' : (plane t).eval q' = s * D * dot (normal t.a t.b t.c) (normal t.a t.b t.c) := by
    have h0 := plane_in hxt
    rw [← hq']
    have : (plane t).eval (shift x (s * D) (outward t)) = (plane t).eval x + s * D * dot (normal t.a t.b t.c) (normal t.a t.b t.c) := by
      rw [outward_eq]
      generalize hn : normal t.a t.b t.c = n
      simp only [plane, Aff.eval, shift, hn, dot]; ring
    rw [this, h0, zero_add]
  have hN := dot_self_pos okt
  have hss : s * s = 1 := by rcases hs with rfl | rfl <;> norm_num
  have sq' : 0 < s * (plane t).eval q' := by
    rw [tq']
    have : s * (s * D * dot (normal t.a t.b t.c) (normal t.a t.b t.c)) = D * dot (normal t.a t.b t.c) (normal t.a t.b t.c) := by linear_combination (D * dot (normal t.a t.b t.c) (normal t.a t.b t.c)) * hss
    rw [this]; exact mul_pos hD0 hN
  have sp' : 0 < s * (plane t).eval p' := by
    have h1 := move (plane t)
    rw [plane_in hq] at h1
    have : s * (plane t).eval p' = s * (plane t).eval p + s * (plane t).eval q' := by linear_combination s * h1
    rw [this]; linarith
  -- the moved segment avoids the surface
  have avoid' : ∀ z, OnSegment p' q' z → ¬ Surface ts z := by
    rintro z hz ⟨u, hum, hin⟩
    have htz := ne_on_segment (plane t) s sp' sq' hz
    obtain ⟨j, hj⟩ := List.getElem?_of_mem hum
    by_cases hji : j = i
    · subst hji
      rw [ht] at hj; cases hj
      exact htz (plane_in hin)
    · rcases hother j u hj hji with hmiss | ⟨up, uq⟩
      · exact far u hum p' q' (near_mono hE0 npp) (near_mono hE0 nqq) hmiss z hz hin
      · by_cases hzz : ∃ z, In t z ∧ (plane u).eval z ≠ 0
        · have hne' := hne (plane u) ((memL _).2 ⟨⟨u, hum, rfl⟩, uq, hzz⟩) q' (near_mono (min_le_right _ _) nq)
          have hpe : (plane u).eval p' = (plane u).eval q' := by have := move (plane u); rw [up, uq] at this; linarith
          refine ne_on_segment (plane u) ((plane u).eval q') ?_ ?_ hz (plane_in hin)
          · rw [hpe]; exact lt_of_le_of_ne (mul_self_nonneg _) (mul_ne_zero hne' hne').symm
          · exact lt_of_le_of_ne (mul_self_nonneg _) (mul_ne_zero hne' hne').symm
        · push Not at hzz
          obtain ⟨k, hk, hku⟩ := same_plane okt (hok u hum) hzz
          have := plane_in hin
          rw [hku] at this
          exact htz ((mul_eq_zero.1 this).resolve_left hk)
  have c1 : χ p ↔ χ p' := hb.const p p' hpK (hKp p' (near_mono hEK npp)) (fun z hz hsurf => by
    obtain ⟨u, hum, hin⟩ := hsurf
    exact start u hum p' (near_mono hE1 npp) z hz hin)
  have c2 : χ p' ↔ χ q' := hb.const p' q' (hKp p' (near_mono hEK npp)) (hqN q' (near_mono (min_le_right _ _) nq)) avoid'
  rw [c1, c2, ← hq']
  obtain ⟨j1, j2⟩ := jump D hD0 hDj
  rcases hs with rfl | rfl
  · rw [one_mul]
    constructor
    · intro h; exact absurd h j2
    · intro h; norm_num at h
  · rw [neg_one_mul]; simp [j1]

end Kigumi.Side

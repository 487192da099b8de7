import Verif.Proofs.PiecesComplex
import Mathlib.Data.Finset.Card

/-! # From every piece that is in a triangle of the other operand, border edges are reached -/
namespace Kigumi.Cutting
open Kigumi Geo Spec.Triangles Spec.Side FaceFace Space
open Kigumi.Side (Aff plane Ok eval_seg in_iff sides weightA weightB weightC eval_weightA eval_weightB eval_weightC eval_plane eval_plane' eval_neg ok_of_proper onSegment_self left_end right_end onSegment_swap in_a in_b in_c plane_in same_plane exists_eps miss_near seg_near near_refl near_mono)
variable {op : Bool → List (Tri P3)} {cut : Bool → Tri P3 → List (Tri P3)}

theorem ok_match {p k : Tri P3} (h : Match p k) (hk : Ok k) : Ok p := by
  obtain ⟨a, b, c⟩ := p
  obtain ⟨a', b', c'⟩ := k
  have key : dot (normal a' b' c') (normal a' b' c') = dot (normal a b c) (normal a b c) := by
    simp only [Match, Spec.SameTri, Tri.rot, Tri.flip, Tri.mk.injEq] at h
    rcases h with (⟨rfl, rfl, rfl⟩ | ⟨rfl, rfl, rfl⟩ | ⟨rfl, rfl, rfl⟩) | (⟨rfl, rfl, rfl⟩ | ⟨rfl, rfl, rfl⟩ | ⟨rfl, rfl, rfl⟩) <;> simp only [normal, cross, dot, sub] <;> ring
  intro h0
  apply hk
  show dot (normal a' b' c') (normal a' b' c') = 0
  rw [key]; exact h0

/-- A point of the plane of a triangle in terms of its corners. -/
theorem weights_in {t k : Tri P3} (ht : Ok t) (hk : Ok k) (hin : ∀ x, In k x → In t x) {q : P3} (hq : In t q) : ∃ α β γ : ℚ, α + β + γ = 1 ∧ q = combo α β γ k.a k.b k.c := by
  obtain ⟨m, hm, e⟩ := same_plane hk ht (fun z hz => plane_in (hin z hz))
  have h0 := plane_in hq
  rw [e, mul_eq_zero] at h0
  have h0 := h0.resolve_left hm
  rw [eval_plane'] at h0
  exact plane_weights hk (by linarith)

theorem weightC_zero (c d w : P3) : (weightC ⟨c, d, w⟩).eval c = 0 ∧ (weightC ⟨c, d, w⟩).eval d = 0 ∧ (weightC ⟨c, d, w⟩).eval w = dot (normal c d w) (normal c d w) := by
  refine ⟨?_, ?_, ?_⟩ <;> rw [eval_weightC] <;> simp only [dot, cross, sub, normal] <;> ring

theorem eval_combo (g : Aff) {α β γ : ℚ} (hs : α + β + γ = 1) (a b c : P3) : g.eval (combo α β γ a b c) = α * g.eval a + β * g.eval b + γ * g.eval c := by
  have : α = 1 - β - γ := by linarith
  subst this
  simp only [Aff.eval, combo, dot]; ring

/-- Beyond an inner point there is a point of the triangle. -/
theorem beyond {t : Tri P3} (ht : Ok t) {y w : P3} (hy : Inner t y) (hw : In t w) (g : Aff) (h0 : g.eval y = 0) (h1 : 0 < g.eval w) : ∃ z, In t z ∧ g.eval z < 0 := by
  let w' : P3 := ⟨2 * y.x - w.x, 2 * y.y - w.y, 2 * y.z - w.z⟩
  have ev : ∀ f : Aff, f.eval w' = 2 * f.eval y - f.eval w := by
    intro f; simp only [w', Aff.eval, dot]; ring
  have g' : g.eval w' < 0 := by rw [ev, h0]; linarith
  by_cases hin : In t w'
  · exact ⟨w', hin, g'⟩
  · obtain ⟨z, -, -, -, ⟨s, k, hs, s0, k0, ez⟩, hz, -⟩ := leave ht hy (w := w') (by rw [ev, plane_in (inner_in hy), plane_in hw]; norm_num) hin
    refine ⟨z, hz, ?_⟩
    rw [ez, eval_seg g hs, h0, mul_zero, zero_add]
    exact mul_neg_of_pos_of_neg k0 g'

/-- Points beyond the next edge are beyond the first one. -/
theorem beyond_next {S : P3 → Prop} (hS : ∀ x y z, S y → S z → OnSegment y z x → S x) {c d w' q : P3} (hc : Ext S c) (hd : S d) (hw' : S w') (hq : S q) {α β γ : ℚ} (hs : α + β + γ = 1) (e : q = combo α β γ c w' d) (hγ : γ < 0) (hne : q ≠ c) : 0 < β := by
  by_contra hβ
  push Not at hβ
  have hα : 1 < α := by linarith
  have hα1 : 0 < α - 1 := by linarith
  let m : P3 := seg (-β / (α - 1)) (-γ / (α - 1)) w' d
  have hm : S m := hS _ _ _ hw' hd ⟨-β / (α - 1), -γ / (α - 1), by field_simp; linarith, div_nonneg (by linarith) hα1.le, div_nonneg (by linarith) hα1.le, rfl⟩
  refine hne (hc.2 q m hq hm ⟨1 / α, (α - 1) / α, by field_simp; ring, div_pos one_pos (by linarith), div_pos hα1 (by linarith), ?_⟩)
  have h0 : α - 1 ≠ 0 := hα1.ne'
  have h1 : α ≠ 0 := by linarith
  rw [e]
  apply p3_ext <;> simp only [m, seg, combo] <;> field_simp <;> ring

/-- **A border edge is reached.** From a piece of a triangle that is contained in a triangle of the other operand, a piece with a border edge is reached by crossing edges that are no border edges, inside of both triangles. -/
theorem walk (h : Cuts op cut) {b : Bool} {t u : Tri P3} (ht : t ∈ op b) (hu : u ∈ op (!b)) (hct : ¬ Coincides op b t) (hcu : ¬ Coincides op (!b) u) {Z : Tri P3 → Prop}
    (hZ : ∀ p ∈ cut b t, ∀ p' ∈ cut b t, Z p → (∀ v ∈ p'.toList, In u v) → ∀ c d, c ≠ d → (c ∈ p.toList ∧ d ∈ p.toList) → (c ∈ p'.toList ∧ d ∈ p'.toList) → ¬ BorderEdge op c d → Z p')
    {p : Tri P3} (hp : p ∈ cut b t) (hpu : ∀ v ∈ p.toList, In u v) (hz : Z p) : ∃ p' ∈ cut b t, Z p' ∧ (∀ v ∈ p'.toList, In u v) ∧ ∃ c ∈ p'.toList, ∃ d ∈ p'.toList, c ≠ d ∧ BorderEdge op c d := by
  classical
  have ct := h.tri b t ht
  have okt := ok_op h ht
  have oku := ok_op h hu
  have hconv : ∀ x y z, Meet t u y → Meet t u z → OnSegment y z x → Meet t u x := fun x y z hy hz hs => ⟨in_convex t x y z hy.1 hz.1 hs, in_convex u x y z hy.2 hz.2 hs⟩
  let V : Finset P3 := ((cut b t).flatMap Tri.toList).toFinset.filter (fun q => In u q)
  have hV : ∀ q, q ∈ V ↔ (∃ p ∈ cut b t, q ∈ p.toList) ∧ In u q := by
    intro q
    simp only [V, Finset.mem_filter, List.mem_toFinset, List.mem_flatMap]
  have key : ∀ (n : Nat) (p : Tri P3) (c d w : P3), p ∈ cut b t → (∀ v ∈ p.toList, In u v) → Z p → Match ⟨c, d, w⟩ p → (V.filter (fun q => (weightC ⟨c, d, w⟩).eval q < 0)).card = n →
      ∃ p' ∈ cut b t, Z p' ∧ (∀ v ∈ p'.toList, In u v) ∧ ∃ c ∈ p'.toList, ∃ d ∈ p'.toList, c ≠ d ∧ BorderEdge op c d := by
    intro n
    induction n using Nat.strong_induction_on with
    | _ n ih =>
      intro p c d w hp hpu hz hm hn
      have okp := ok_of_proper (ct.complex.proper p hp)
      have okm := ok_match hm okp
      obtain ⟨n1, n2, n3⟩ := proper_distinct (t := ⟨c, d, w⟩) (by
        intro h0
        apply okm
        have : normal c d w = ⟨0, 0, 0⟩ := h0
        show dot (normal c d w) (normal c d w) = 0
        rw [this]; simp [dot])
      simp only at n1 n2 n3
      have mem : ∀ {v}, v ∈ (⟨c, d, w⟩ : Tri P3).toList → v ∈ p.toList := fun {v} hv => (match_mem hm v).1 hv
      have mc : c ∈ p.toList := mem (by simp [Tri.toList])
      have md : d ∈ p.toList := mem (by simp [Tri.toList])
      have mw : w ∈ p.toList := mem (by simp [Tri.toList])
      by_cases hb : BorderEdge op c d
      · exact ⟨p, hp, hz, hpu, c, mc, d, md, n1, hb⟩
      have q_of : ∀ {p : Tri P3} {v : P3}, p ∈ cut b t → v ∈ p.toList → In u v → Q t u v := fun hp hv hvu => mark_q h ht hu (ct.corner _ hp _ hv) hvu
      have qc := q_of hp mc (hpu _ mc)
      have qd := q_of hp md (hpu _ md)
      have qw := q_of hp mw (hpu _ mw)
      have hwide : Wide t u := ⟨c, d, w, qc, qd, qw, n1, n2, n3.symm⟩
      have i1 : Inner t (seg (1 / 2) (1 / 2) c d) := mid_inner okt qc.1.1 qd.1.1 fun hs => hb (joined_border ht hu hct hcu (joined_iff.2 ⟨qc, qd, n1, Or.inl hs⟩))
      have i2 : Inner u (seg (1 / 2) (1 / 2) c d) := mid_inner oku qc.1.2 qd.1.2 fun hs => hb (joined_border ht hu hct hcu (joined_iff.2 ⟨qc, qd, n1, Or.inr (Or.inl hs)⟩))
      have hbt : Btw (seg (1 / 2) (1 / 2) c d) c d := ⟨1 / 2, 1 / 2, by norm_num, by norm_num, by norm_num, rfl⟩
      generalize hy : seg (1 / 2) (1 / 2) c d = y at i1 i2 hbt
      obtain ⟨g0, g1, g2⟩ := weightC_zero c d w
      have gp : 0 < (weightC ⟨c, d, w⟩).eval w := by rw [g2]; exact dot_self_pos okm
      have gy : (weightC ⟨c, d, w⟩).eval y = 0 := by rw [← hy, eval_seg _ (by norm_num), g0, g1]; ring
      obtain ⟨z, zt, gz⟩ := beyond okt i1 (ct.inside p hp w (in_corner mw)) _ gy gp
      -- the piece on the other side
      obtain ⟨e, he, hnear⟩ := exists_eps (fun (p : Tri P3) e => ¬ In p y → ∀ x, Near e x y → ¬ In p x) (fun p e e' _ hle hp hn x hx => hp hn x (near_mono hle hx)) (cut b t) (fun p hp => by
        by_cases hn : In p y
        · exact ⟨1, by norm_num, fun hc => absurd hn hc⟩
        · obtain ⟨e, he, hm⟩ := miss_near (ok_of_proper (ct.complex.proper p hp)) (p := y) (q := y) (fun z hz => by rw [onSegment_self hz]; exact hn)
          exact ⟨e, he, fun _ x hx => hm x x hx hx x (left_end x x)⟩)
      obtain ⟨k, hk0, hk1, hk⟩ := seg_near he y z
      obtain ⟨p', hp', hpin⟩ := ct.cover _ (in_convex t _ _ _ (inner_in i1) zt ⟨1 - k, k, by ring, by linarith, hk0.le, rfl⟩)
      have hyp' : In p' y := by
        by_contra hn
        exact hnear p' hp' hn _ hk hpin
      have hpu' : ∀ v ∈ p'.toList, In u v := fun v hv => piece_inside h ht hu hct hcu hwide hp' hyp' i2 hv
      have hF := com_face (u := p') okp
      have hcom := com_same h ht ht hp hp' (btw_in hbt (in_corner mc) (in_corner md)) hyp'
      have mc' : c ∈ p'.toList := corner_common h ht ht hp hp' mc (com_in (hF.2 y c d hcom (in_corner mc) (in_corner md) hbt)).2
      have md' : d ∈ p'.toList := corner_common h ht ht hp hp' md (com_in (hF.2 y d c hcom (in_corner md) (in_corner mc) (btw_symm hbt))).2
      obtain ⟨w', hm'⟩ := third (ct.complex.proper p' hp') mc' md' n1
      have mw' : w' ∈ p'.toList := (match_mem hm' w').1 (by simp [Tri.toList])
      have gw' : (weightC ⟨c, d, w⟩).eval w' < 0 := by
        by_contra hc
        push Not at hc
        have : (weightC ⟨c, d, w⟩).neg.eval (seg (1 - k) k y z) ≤ 0 := hull_eval (E := (· ∈ p'.toList)) (fun v hv => by
          have := (match_mem hm' v).2 hv
          simp only [Tri.toList, List.mem_cons, List.not_mem_nil, or_false] at this
          rw [eval_neg]
          rcases this with rfl | rfl | rfl
          · rw [g0]; norm_num
          · rw [g1]; norm_num
          · linarith) (in_hull hpin)
        rw [eval_neg, eval_seg _ (by ring), gy] at this
        have := mul_neg_of_pos_of_neg hk0 gz
        linarith
      have hm2 : Match ⟨c, w', d⟩ p' := match_trans (Or.inr (Or.inl rfl)) hm'
      have okp' := ok_of_proper (ct.complex.proper p' hp')
      have ok2 := ok_match hm2 okp'
      have qw' := q_of hp' mw' (hpu' _ mw')
      obtain ⟨f0, f1, f2⟩ := weightC_zero c w' d
      refine ih _ ?_ p' c w' d hp' hpu' (hZ p hp p' hp' hz hpu' c d n1 ⟨mc, md⟩ ⟨mc', md'⟩ hb) hm2 rfl
      rw [← hn]
      apply Finset.card_lt_card
      rw [Finset.ssubset_iff_of_subset]
      · refine ⟨w', ?_, ?_⟩
        · rw [Finset.mem_filter, hV]
          exact ⟨⟨⟨p', hp', mw'⟩, hpu' _ mw'⟩, gw'⟩
        · rw [Finset.mem_filter, f1]
          exact fun hc => lt_irrefl _ hc.2
      · intro q hq
        rw [Finset.mem_filter, hV] at hq ⊢
        obtain ⟨⟨⟨p1, hp1, hq1⟩, hqu⟩, hneg⟩ := hq
        refine ⟨⟨⟨p1, hp1, hq1⟩, hqu⟩, ?_⟩
        have hqt := ct.inside p1 hp1 q (in_corner hq1)
        obtain ⟨α, β, γ, hs, e⟩ := weights_in okt ok2 (fun x hx => ct.inside p' hp' x (in_match hm2 hx)) hqt
        simp only at e
        have hpos := dot_self_pos ok2
        have hγ : γ < 0 := by
          have := hneg
          rw [e, eval_combo _ hs, f0, f1, f2, mul_zero, mul_zero, zero_add, zero_add] at this
          by_contra hc
          push Not at hc
          exact absurd (mul_nonneg hc hpos.le) (not_le.2 this)
        have hne : q ≠ c := by
          rintro rfl
          rw [f0] at hneg
          exact lt_irrefl _ hneg
        have hβ := beyond_next hconv qc qd.1 qw'.1 ⟨hqt, hqu⟩ hs e hγ hne
        rw [e, eval_combo _ hs, g0, g1, mul_zero, mul_zero, zero_add, add_zero]
        exact mul_neg_of_pos_of_neg hβ gw'
  exact key _ p p.a p.b p.c hp hpu hz (match_refl p) rfl

end Kigumi.Cutting

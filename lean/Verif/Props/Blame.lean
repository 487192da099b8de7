import Verif.Proofs.Blame
import Verif.Proofs.Executions

/-!
# C84: complaints about self-intersections
-/
namespace Kigumi.Props
open Kigumi Outcome Geo Spec.Triangles Spec.Side
open Kigumi.Corefine (Env Soups construct State exactEnv exactEnv_valid)
open Kigumi.Spec (HasCorners)
variable {op : Bool → List (Tri P3)} {D : Type} {s : Bool → Soup P3 D} {E : Env}

/-- **The constructor of the corefinement blames the right mesh.** For any operands whose faces have an area and do not repeat, whatever the threads do: it returns, or it throws that one of the meshes has self-intersections, and this one has them. There is no other
exception and no undefined behaviour. -/
theorem C84_blame (h : Soups op s) (hE : E.Valid op) : (∃ o, construct E (s true) (s false) o) ∧ ∀ o, construct E (s true) (s false) o →
    (∃ st, o = ok st) ∨ (o = exn "the first mesh has self-intersections" ∧ ¬ Complex (op true)) ∨ (o = exn "the second mesh has self-intersections" ∧ ¬ Complex (op false)) := by
  refine ⟨Corefine.construct_exists _, fun o ho => ?_⟩
  rcases Corefine.construct_any h hE ho with ⟨h1, h2, -⟩ | ⟨-, ⟨h1, h2, -⟩ | ⟨h, -⟩⟩
  · exact .inr (.inr ⟨h1, h2⟩)
  · exact .inr (.inl ⟨h1, h2⟩)
  · exact .inl h

/-- **Self-intersections are not noticed where the other mesh is not**: operands without common points are never complained about. -/
theorem C84_unnoticed (h : Soups op s) (hE : E.Valid op) (hd : ∀ t ∈ op true, ∀ u ∈ op false, ∀ x, ¬ Common t u x) {o : Outcome State} (ho : construct E (s true) (s false) o) : ∃ st, o = ok st := by
  rcases Corefine.construct_any h hE ho with ⟨-, -, t, ht, u, hu, x, hx⟩ | ⟨-, ⟨-, -, t, ht, u, hu, x, hx⟩ | ⟨h, -⟩⟩
  · exact absurd hx (hd t ht u hu x)
  · exact absurd hx (hd t ht u hu x)
  · exact h

/-- **Self-intersections are noticed where the other mesh meets them**: if two segments in which faces of the second mesh cut a face of the first one cross, every execution throws that the second mesh has self-intersections. -/
theorem C84_second (h : Soups op s) (hE : E.Valid op) (hT : E.Throws) {t : Tri P3} (ht : t ∈ op true) {x y x' y' : P3} (h1 : CutSegment op true t x y) (h2 : CutSegment op true t x' y') (hx : Cross x y x' y') {o : Outcome State}
    (ho : construct E (s true) (s false) o) : o = exn "the second mesh has self-intersections" := by
  rcases Corefine.construct_any h hE ho with ⟨h, -⟩ | ⟨h, -⟩
  · exact h
  · exact absurd hx (h hT t ht x y x' y' h1 h2)

/-- The same for the first mesh, if the second one has no self-intersections. -/
theorem C84_first (h : Soups op s) (hE : E.Valid op) (hT : E.Throws) (hcx : Complex (op false)) {t : Tri P3} (ht : t ∈ op false) {x y x' y' : P3} (h1 : CutSegment op false t x y) (h2 : CutSegment op false t x' y') (hx : Cross x y x' y') {o : Outcome State}
    (ho : construct E (s true) (s false) o) : o = exn "the first mesh has self-intersections" := by
  rcases Corefine.construct_any h hE ho with ⟨-, h, -⟩ | ⟨-, ⟨h, -⟩ | ⟨-, h⟩⟩
  · exact absurd hcx h
  · exact h
  · exact absurd hx (h hT t ht x y x' y' h1 h2)

/-- Some environment is as these theorems expect. -/
theorem C84_consistent (op : Bool → List (Tri P3)) : (exactEnv op).Valid op ∧ (exactEnv op).Throws := by
  refine ⟨exactEnv_valid op, ?_⟩
  intro points c i j x y x' y' hc hi hj hx
  have hs : Corefine.SameFace c { c with constraints := c.constraints ++ [(i, j)] } := ⟨rfl, rfl, rfl, rfl⟩
  simp only [exactEnv, decide_eq_true_eq]
  intro f hf
  obtain ⟨e, he, a, b⟩ := hc
  exact hf.apart x y x' y' ⟨e, List.mem_append_left _ he, by rw [hs.info]; exact a, by rw [hs.info]; exact b⟩
    ⟨(i, j), List.mem_append_right _ (by simp), by rw [hs.info]; exact hi, by rw [hs.info]; exact hj⟩ hx

/-! ## Two faces that cross, and a face that meets them there -/

theorem segment_joined {t u : Tri P3} {c d : P3} (hne : c ≠ d) (hS : ∀ x, Common t u x ↔ OnSegment c d x) : Joined t u c d := by
  have end' : ∀ {c d : P3}, c ≠ d → (∀ x, Common t u x ↔ OnSegment c d x) → Extreme (Common t u) c := by
    intro c d hne hS
    refine ⟨(hS c).2 ⟨1, 0, by norm_num, by norm_num, by norm_num, by apply FaceFace.p3_ext <;> simp⟩, ?_⟩
    rintro y z hy hz ⟨s, r, hs, s0, r0, e⟩
    obtain ⟨a, b, hab, a0, b0, rfl⟩ := (hS y).1 hy
    obtain ⟨a', b', hab', a0', b0', rfl⟩ := (hS z).1 hz
    have e1 := congrArg Spec.P3.x e
    have e2 := congrArg Spec.P3.y e
    have e3 := congrArg Spec.P3.z e
    simp only at e1 e2 e3
    obtain rfl : a = 1 - b := by linarith
    obtain rfl : a' = 1 - b' := by linarith
    obtain rfl : s = 1 - r := by linarith
    have hz : (1 - r) * b + r * b' = 0 := by
      by_contra hk
      apply hne
      apply FaceFace.p3_ext
      · have : ((1 - r) * b + r * b') * (d.x - c.x) = 0 := by linear_combination -e1
        rcases mul_eq_zero.1 this with h | h
        · exact absurd h hk
        · linarith
      · have : ((1 - r) * b + r * b') * (d.y - c.y) = 0 := by linear_combination -e2
        rcases mul_eq_zero.1 this with h | h
        · exact absurd h hk
        · linarith
      · have : ((1 - r) * b + r * b') * (d.z - c.z) = 0 := by linear_combination -e3
        rcases mul_eq_zero.1 this with h | h
        · exact absurd h hk
        · linarith
    have p1 : 0 ≤ (1 - r) * b := mul_nonneg s0 b0
    have p2 : 0 ≤ r * b' := mul_nonneg r0 b0'
    rcases mul_eq_zero.1 (by linarith : (1 - r) * b = 0) with h | h
    · right
      obtain rfl : r = 1 := by linarith
      obtain rfl : b' = 0 := by linarith
      apply FaceFace.p3_ext <;> simp
    · left
      subst h
      apply FaceFace.p3_ext <;> simp
  have sw : ∀ x, Common t u x ↔ OnSegment d c x := fun x => (hS x).trans ⟨Corefine.onSegment_swap, Corefine.onSegment_swap⟩
  refine ⟨end' hne hS, end' hne.symm sw, hne, .inr (.inr fun x hx => ?_)⟩
  have h1 := (hS x).1 hx.1
  rcases hx.2 c d (end' hne hS).1 (end' hne.symm sw).1 h1 with h | h
  · exact .inl h.symm
  · exact .inr h.symm

def floorSoup : Soup P3 Nat := ⟨[⟨-4, -4, 0⟩, ⟨4, -4, 0⟩, ⟨0, 8, 0⟩], [⟨0, 1, 2⟩], [7]⟩
def sailSoup : Soup P3 Nat := ⟨[⟨0, -2, -1⟩, ⟨0, 2, -1⟩, ⟨0, 0, 1⟩, ⟨-2, 0, -1⟩, ⟨2, 0, -1⟩], [⟨0, 1, 2⟩, ⟨3, 4, 2⟩], [8, 9]⟩
def floorSails (b : Bool) : Soup P3 Nat := if b then floorSoup else sailSoup
def deckTri : Tri P3 := ⟨⟨-4, -4, 0⟩, ⟨4, -4, 0⟩, ⟨0, 8, 0⟩⟩
def sailA : Tri P3 := ⟨⟨0, -2, -1⟩, ⟨0, 2, -1⟩, ⟨0, 0, 1⟩⟩
def sailB : Tri P3 := ⟨⟨-2, 0, -1⟩, ⟨2, 0, -1⟩, ⟨0, 0, 1⟩⟩
def floorSailTris (b : Bool) : List (Tri P3) := if b then [deckTri] else [sailA, sailB]

theorem sailA_cut (x : P3) : Common deckTri sailA x ↔ OnSegment ⟨0, -1, 0⟩ ⟨0, 1, 0⟩ x := by
  obtain ⟨x, y, z⟩ := x
  constructor
  · rintro ⟨⟨a0, a1, a2, as, ae, -⟩, b0, b1, b2, bs, be, p0, p1, p2⟩
    simp only [deckTri, sailA, combo, Spec.P3.mk.injEq] at ae be
    obtain ⟨-, -, rfl⟩ := ae
    obtain ⟨rfl, rfl, e⟩ := be
    refine ⟨2 * b0, 2 * b1, by linarith, by linarith, by linarith, ?_⟩
    simp only [Spec.P3.mk.injEq]
    refine ⟨by ring, by ring, by linarith⟩
  · rintro ⟨s, t, hs, s0, t0, e⟩
    simp only [Spec.P3.mk.injEq] at e
    obtain ⟨rfl, rfl, rfl⟩ := e
    obtain rfl : s = 1 - t := by linarith
    refine ⟨⟨(9 - 2 * t) / 24, (9 - 2 * t) / 24, (3 + 2 * t) / 12, by ring, ?_, by linarith, by linarith, by linarith⟩, (1 - t) / 2, t / 2, 1 / 2, by ring, ?_, by linarith, by linarith, by norm_num⟩
    · simp only [deckTri, combo, Spec.P3.mk.injEq]; refine ⟨by ring, by ring, by ring⟩
    · simp only [sailA, combo, Spec.P3.mk.injEq]; refine ⟨by ring, by ring, by ring⟩

theorem sailB_cut (x : P3) : Common deckTri sailB x ↔ OnSegment ⟨-1, 0, 0⟩ ⟨1, 0, 0⟩ x := by
  obtain ⟨x, y, z⟩ := x
  constructor
  · rintro ⟨⟨a0, a1, a2, as, ae, -⟩, b0, b1, b2, bs, be, p0, p1, p2⟩
    simp only [deckTri, sailB, combo, Spec.P3.mk.injEq] at ae be
    obtain ⟨-, -, rfl⟩ := ae
    obtain ⟨rfl, rfl, e⟩ := be
    refine ⟨2 * b0, 2 * b1, by linarith, by linarith, by linarith, ?_⟩
    simp only [Spec.P3.mk.injEq]
    refine ⟨by ring, by ring, by linarith⟩
  · rintro ⟨s, t, hs, s0, t0, e⟩
    simp only [Spec.P3.mk.injEq] at e
    obtain ⟨rfl, rfl, rfl⟩ := e
    obtain rfl : s = 1 - t := by linarith
    refine ⟨⟨1 / 3 - (2 * t - 1) / 8, 1 / 3 + (2 * t - 1) / 8, 1 / 3, by ring, ?_, by linarith, by linarith, by norm_num⟩, (1 - t) / 2, t / 2, 1 / 2, by ring, ?_, by linarith, by linarith, by norm_num⟩
    · simp only [deckTri, combo, Spec.P3.mk.injEq]; refine ⟨by ring, by ring, by ring⟩
    · simp only [sailB, combo, Spec.P3.mk.injEq]; refine ⟨by ring, by ring, by ring⟩

theorem floorSails_soups : Soups floorSailTris floorSails where
  corners b := by
    cases b
    · exact .cons ⟨rfl, rfl, rfl⟩ (.cons ⟨rfl, rfl, rfl⟩ .nil)
    · exact .cons ⟨rfl, rfl, rfl⟩ .nil
  proper b := by cases b <;> (unfold Proper; decide +kernel)
  once b := by
    rw [Space.once_pairwise]
    unfold Match
    cases b <;> decide +kernel
  data b := by cases b <;> rfl

theorem sails_cross : Cross (⟨0, -1, 0⟩ : P3) ⟨0, 1, 0⟩ ⟨-1, 0, 0⟩ ⟨1, 0, 0⟩ := by
  refine ⟨⟨⟨0, 0, 0⟩, ⟨⟨1 / 2, 1 / 2, by norm_num, by norm_num, by norm_num, by apply FaceFace.p3_ext <;> norm_num⟩, by simp, by simp⟩, ⟨1 / 2, 1 / 2, by norm_num, by norm_num, by norm_num, by apply FaceFace.p3_ext <;> norm_num⟩, by simp, by simp⟩, ?_⟩
  rintro ⟨⟨s, t, -, e⟩, -⟩
  simp at e

theorem floorSails_cuts : CutSegment floorSailTris true deckTri ⟨0, -1, 0⟩ ⟨0, 1, 0⟩ ∧ CutSegment floorSailTris true deckTri ⟨-1, 0, 0⟩ ⟨1, 0, 0⟩ := by
  have h1 : ¬ Coincides floorSailTris true deckTri := by unfold Coincides Match; decide +kernel
  have h2 : ¬ Coincides floorSailTris false sailA := by unfold Coincides Match; decide +kernel
  have h3 : ¬ Coincides floorSailTris false sailB := by unfold Coincides Match; decide +kernel
  exact ⟨⟨h1, sailA, by decide +kernel, h2, segment_joined (by decide +kernel) sailA_cut⟩, h1, sailB, by decide +kernel, h3, segment_joined (by decide +kernel) sailB_cut⟩

/-- Every execution throws that the second mesh has self-intersections. -/
example {o : Outcome State} (ho : construct (exactEnv floorSailTris) floorSoup sailSoup o) : o = exn "the second mesh has self-intersections" :=
  C84_second floorSails_soups (C84_consistent _).1 (C84_consistent _).2 (by decide +kernel) floorSails_cuts.1 floorSails_cuts.2 sails_cross ho

/-- With exchanged operands, the first mesh is blamed; the second one has no self-intersections. -/
example {o : Outcome State} (ho : construct (exactEnv fun b => floorSailTris !b) sailSoup floorSoup o) : o = exn "the first mesh has self-intersections" := by
  have hs : Soups (fun b => floorSailTris !b) (fun b => floorSails !b) := ⟨fun b => floorSails_soups.corners !b, fun b => floorSails_soups.proper !b, fun b => floorSails_soups.once !b, fun b => floorSails_soups.data !b⟩
  have cx : Complex [deckTri] := Corefine.complex_single (floorSails_soups.proper true deckTri (by decide +kernel))
  have sw : ∀ {x y : P3}, CutSegment floorSailTris true deckTri x y → CutSegment (fun b => floorSailTris !b) false deckTri x y := fun h => h
  exact C84_first hs (C84_consistent _).1 (C84_consistent _).2 cx (by decide +kernel) (sw floorSails_cuts.1) (sw floorSails_cuts.2) sails_cross ho

/-- A face above the sails: nothing is noticed. -/
def liftedTri : Tri P3 := ⟨⟨-4, -4, 2⟩, ⟨4, -4, 2⟩, ⟨0, 8, 2⟩⟩
def liftedTris (b : Bool) : List (Tri P3) := if b then [liftedTri] else [sailA, sailB]
def liftedSoup : Soup P3 Nat := ⟨[⟨-4, -4, 2⟩, ⟨4, -4, 2⟩, ⟨0, 8, 2⟩], [⟨0, 1, 2⟩], [7]⟩
def liftedSails (b : Bool) : Soup P3 Nat := if b then liftedSoup else sailSoup

theorem liftedSails_soups : Soups liftedTris liftedSails where
  corners b := by
    cases b
    · exact floorSails_soups.corners false
    · exact .cons ⟨rfl, rfl, rfl⟩ .nil
  proper b := by cases b <;> (unfold Proper; decide +kernel)
  once b := by
    rw [Space.once_pairwise]
    unfold Match
    cases b <;> decide +kernel
  data b := by cases b <;> rfl

example {o : Outcome State} (ho : construct (exactEnv liftedTris) liftedSoup sailSoup o) : ∃ st, o = ok st := by
  refine C84_unnoticed liftedSails_soups (C84_consistent _).1 ?_ ho
  rintro t ht u hu x ⟨⟨a0, a1, a2, as, ae, -⟩, b0, b1, b2, bs, be, p0, p1, p2⟩
  have et : t = liftedTri := by simpa [liftedTris] using ht
  have eu : u = sailA ∨ u = sailB := by simpa [liftedTris] using hu
  subst et
  have e1 := congrArg Spec.P3.z ae
  have e2 := congrArg Spec.P3.z be
  rcases eu with rfl | rfl <;> simp only [liftedTri, sailA, sailB, combo] at e1 e2 <;> linarith

end Kigumi.Props

import Verif.Proofs.Mixed
import Verif.Tactics

/-! # The classification around a single edge with two faces, one of each operand, that are not connected with other faces -/
namespace Kigumi.Local
open Kigumi TagProg Global

/-- A single body is run alone. -/
theorem one_edge {F : Local.Env} {x : List Nat × Option (List Entry)} {tags0 tags1 : Nat → Tag} {w : Warnings} (h : Local.Result F [x] tags0 tags1 w) : (body F x.1 x.2).run tags0 = some (tags1, w) := by
  obtain ⟨c, ws, order, hex, rfl, hdone, hperm, rfl⟩ := h
  have inv : (c.prog 0).run c.tags = (body F x.1 x.2).run tags0 ∧ ∀ i, i ≠ 0 → c.prog i = .ret .none := by
    clear hdone
    induction hex with
    | init =>
      refine ⟨rfl, fun i hi => ?_⟩
      obtain ⟨i, rfl⟩ := Nat.exists_eq_succ_of_ne_zero hi
      simp [Local.start]
    | @step c c' i _ st ih =>
      have hi : i = 0 := by
        by_contra hi
        cases st with
        | read hk => rw [ih.2 i hi] at hk; cases hk
        | write hk => rw [ih.2 i hi] at hk; cases hk
      subst hi
      cases st with
      | read hk =>
        refine ⟨?_, fun i hi => ?_⟩
        · rw [← ih.1, hk]; simp [Flood.set, Prog.run]
        · simp [Flood.set, hi, ih.2 i hi]
      | write hk =>
        refine ⟨?_, fun i hi => ?_⟩
        · rw [← ih.1, hk]; simp [Flood.set, Prog.run]
        · simp [Flood.set, hi, ih.2 i hi]
  have h0 := hdone 0 (by simp)
  have ho : order = [0] := by simpa using hperm
  rw [h0] at inv
  rw [← inv.1, ho]
  simp [Prog.run, Warnings.or, Warnings.none]

/-- A flood that finds nothing but faces with its tag. -/
theorem flood_self {F : Local.Env} {f : Nat} {k : Warnings → Prog} {tags : Nat → Tag} (hu : tags f ≠ .unknown) (hn : ∀ g ∈ F.nbr f, g = f) : (flood F f k).run tags = (k .none).run tags := by
  have loop : ∀ (l : List Nat) (n : Nat), (∀ g ∈ l, g = f) → (floodLoop F (tags f) (flag (F.fromLeft f)) k n l [] .none).run tags = (k .none).run tags := by
    intro l n
    induction l with
    | nil => intro _; unfold floodLoop; rfl
    | cons g l ih =>
      intro h
      have hg := h g (by simp)
      subst hg
      unfold floodLoop
      simp only [Prog.run, if_neg hu, ne_eq, not_true, if_false]
      exact ih fun x hx => h x (by simp [hx])
  unfold flood
  simp only [Prog.run]
  unfold floodLoop
  simp only
  exact loop _ _ hn

/-- Two faces, one of each operand, at the single edge, seen in the same direction. -/
theorem pair_run {F : Local.Env} {i j r s : Nat} {c : Bool} {around : List Nat} {tags : Nat → Tag} (hij : i ≠ j) (hrs : r ≠ s) (hi : tags i = .unknown) (hj : tags j = .unknown) (ni : ∀ g ∈ F.nbr i, g = i) (nj : ∀ g ∈ F.nbr j, g = j)
    (ha : i ∈ around) {out : Option ((Nat → Tag) × Warnings)} (h : (body F around (some [⟨i, r, c⟩, ⟨j, s, c⟩])).run tags = out) :
    ∃ tags', out = some (tags', .none) ∧ tags' i = (if c then .exterior else .interior) ∧ tags' j = (if c then .interior else .exterior) := by
  have found : ∀ (l : List Nat) (k : Bool → Prog), i ∈ l → (findUntagged l k).run tags = (k true).run tags := by
    intro l k hl
    induction l with
    | nil => cases hl
    | cons x l ih =>
      unfold findUntagged
      simp only [Prog.run]
      by_cases hx : tags x = .unknown
      · rw [if_pos hx]
      · rw [if_neg hx]
        rcases List.mem_cons.1 hl with rfl | hl
        · exact absurd hi hx
        · exact ih hl
  subst h
  unfold body
  rw [found _ _ ha]
  have hji := hij.symm
  cases c <;>
    simp [step1, step2, step3, nth, isOverlapping, List.range_succ, hrs, hrs.symm, Prog.run, hi, hj, Flood.set, hij, hji, tour, tourIndices, propagate, Warnings.or, Warnings.none]
  all_goals
    rw [flood_self (by simp [Flood.set]) ni]
    simp only [Prog.run]
    rw [if_neg (by simp [Flood.set, hji]), flood_self (by simp [Flood.set, hji]) nj]
    simp [Prog.run, Flood.set, hij, hji, Warnings.none]

end Kigumi.Local

namespace Kigumi.Global
open Kigumi

/-- Nothing is left to do if all faces have tags. -/
theorem nothing_left {nbr : Nat → List Nat} {n : Nat} {side : Nat → Option Tag} {fromLeft : Nat → Bool} {tags0 tags : Nat → Tag} {w : Warnings} (h : Global.Result nbr n side fromLeft tags0 tags w) (hn : ∀ i, i < n → tags0 i ≠ .unknown) :
    tags = tags0 ∧ w = .none := by
  obtain ⟨reps, hreps, t, -, k, c, order, hex, -, rfl, hperm, rfl⟩ := h
  have none : ∀ (is : List Nat) (vis : Nat → Bool), (∀ i ∈ is, i < n) → components nbr tags0 n is vis = some [] := by
    intro is
    induction is with
    | nil => intro vis _; rfl
    | cons i is ih =>
      intro vis his
      unfold components
      by_cases hv : vis i = true
      · rw [if_pos hv]; exact ih _ fun x hx => his x (by simp [hx])
      · rw [if_neg hv, if_neg (hn i (his i (by simp)))]; exact ih _ fun x hx => his x (by simp [hx])
  unfold representatives at hreps
  rw [none _ _ (by simp)] at hreps
  cases hreps
  rw [List.perm_nil.1 hperm]
  refine ⟨?_, rfl⟩
  cases hex with
  | init => rfl
  | step _ h => cases h

end Kigumi.Global

namespace Kigumi.Space
open Kigumi Outcome Geo Radial Local Spec.Triangles Spec.Side
open Kigumi.Spec (SameTri SameFace)
variable {D : Type}

theorem same_face {pts : Nat → P3} {f : Tri Nat} {t : Tri P3} (h : SameTri (tri pts f) t) : ∃ o z r, SameFace ⟨o, z, r⟩ f ∧ pts o = t.a ∧ pts z = t.b ∧ pts r = t.c := by
  obtain ⟨a, b, c⟩ := f
  rcases h with rfl | rfl | rfl
  · exact ⟨a, b, c, .inl rfl, rfl, rfl, rfl⟩
  · exact ⟨b, c, a, .inr (.inr rfl), rfl, rfl, rfl⟩
  · exact ⟨c, a, b, .inr (.inl rfl), rfl, rfl, rfl⟩

theorem entry_along {p q r fi : Nat} {f : Tri Nat} (h : SameFace ⟨p, q, r⟩ f) (h1 : p ≠ q) (h2 : q ≠ r) (h3 : p ≠ r) : mkEntry p q fi f = ok ⟨fi, r, true⟩ := by
  rcases h with rfl | rfl | rfl <;> simp [mkEntry, findCorner, cornerAt, Tri.rot, h1, h2, h3, h1.symm, h2.symm, h3.symm]

theorem entry_against {p q r fi : Nat} {f : Tri Nat} (h : SameFace ⟨q, p, r⟩ f) (h1 : p ≠ q) (h2 : q ≠ r) (h3 : p ≠ r) : mkEntry p q fi f = ok ⟨fi, r, false⟩ := by
  rcases h with rfl | rfl | rfl <;> simp [mkEntry, findCorner, cornerAt, Tri.rot, h1, h2, h3, h1.symm, h2.symm, h3.symm]

theorem sort_two {E : Mix.Env} {orig : Bool → List (Tri P3)} (hE : E.Valid orig) {x y : FaceAround} (hxx : radialLt x x = false) (hyy : radialLt y y = false) (hxy : radialLt x y = true) (hyx : radialLt y x = false) {es : List FaceAround}
    (h : es = [x, y] ∨ es = [y, x]) : E.sort es = [x, y] := by
  have mem : ∀ a ∈ es, a = x ∨ a = y := by rcases h with rfl | rfl <;> simp [or_comm]
  have hs := hE.sort es (by intro a ha; rcases mem a ha with rfl | rfl <;> assumption)
    (by
      intro a ha b hb c hc
      rcases mem a ha with rfl | rfl <;> rcases mem b hb with rfl | rfl <;> rcases mem c hc with rfl | rfl <;> simp_all)
    (by
      intro a ha b hb c hc
      rcases mem a ha with rfl | rfl <;> rcases mem b hb with rfl | rfl <;> rcases mem c hc with rfl | rfl <;> simp_all)
  obtain ⟨hp, hs⟩ := hs
  have hp' : (E.sort es).Perm [x, y] := by
    rcases h with rfl | rfl
    · exact hp
    · exact hp.trans (List.Perm.swap _ _ _)
  generalize E.sort es = s at hs hp'
  have hl := hp'.length_eq
  match s, hl with
  | [a, b], _ =>
    have ha : a = x ∨ a = y := by simpa using hp'.subset (a := a) (by simp)
    have hb : b = x ∨ b = y := by simpa using hp'.subset (a := b) (by simp)
    have hne : x ≠ y := by rintro rfl; simp_all
    have hnd : [a, b].Nodup := hp'.nodup_iff.2 (by simp [hne])
    simp only [List.nodup_cons, List.mem_singleton, List.pairwise_cons, forall_eq] at hnd hs
    rcases ha with rfl | rfl <;> rcases hb with rfl | rfl <;> simp_all

/-- A list of two numbers. -/
theorem two_increasing {l : List Nat} (hs : l.Pairwise (· < ·)) {i j : Nat} (hij : i ≠ j) (hm : ∀ k, k ∈ l ↔ k = i ∨ k = j) : l = [i, j] ∨ l = [j, i] := by
  have hl : l.Perm [i, j] := (List.perm_ext_iff_of_nodup (hs.imp (fun h => ne_of_lt h)) (by simp [hij])).2 (by simpa using hm)
  have := hl.length_eq
  match l, this with
  | [a, b], _ =>
    have ha : a = i ∨ a = j := (hm a).1 (by simp)
    have hb : b = i ∨ b = j := (hm b).1 (by simp)
    simp only [List.pairwise_cons, List.mem_singleton, forall_eq] at hs
    have := hs.1
    rcases ha with rfl | rfl <;> rcases hb with rfl | rfl <;> first | (exfalso; omega) | simp

end Kigumi.Space

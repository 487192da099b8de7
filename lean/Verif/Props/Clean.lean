import Verif.Props.FindDefects
import Verif.Props.NonManifold
import Verif.Proofs.Clean

/-! # C92: what defects say about solids -/
namespace Kigumi.Props
open Kigumi Outcome Defects Spec.Defects Spec.Triangles Spec.Side Space
open Kigumi.Spec (HasCorners SameTri)
open Kigumi.Geo (P3)

theorem counted_zero {α : Type} {S : α → Prop} (h : Counted 0 S) (x : α) : ¬ S x := by
  obtain ⟨l, -, l2, l3⟩ := h
  rw [List.length_eq_zero_iff] at l2
  subst l2
  exact fun hx => by simpa using (l3 x).2 hx

theorem counted_none {α : Type} {n : Nat} {S : α → Prop} (h : Counted n S) : n = 0 ↔ ∀ x, ¬ S x := by
  constructor
  · rintro rfl; exact counted_zero h
  · intro hn
    obtain ⟨l, -, rfl, l3⟩ := h
    rw [List.length_eq_zero_iff, List.eq_nil_iff_forall_not_mem]
    exact fun x hx => hn x ((l3 x).1 hx)

/-- **C92, conditions.** No degenerate and no overlapping faces are found, exactly if the first two conditions on meshes are met: all faces have area, and two faces meet in a common vertex, a common edge or not at all. -/
theorem C92_conditions {ps : List P3} {ts : List (Tri P3)} {c : Fin 8 → Nat} (h : Faults ps ts c) : (c 5 = 0 ∧ c 6 = 0 ∧ c 7 = 0) ↔ Complex ts ∧ Once ts := by
  rw [counted_none h.collapsed, counted_none h.flat, counted_none h.overlapping]
  constructor
  · rintro ⟨h1, h2, h3⟩
    have hp : ∀ t ∈ ts, Proper t := by
      intro t ht
      obtain ⟨i, hi⟩ := List.mem_iff_getElem?.1 ht
      rw [proper_iff_line]
      intro hl
      by_cases hd : Proper3 t
      · exact h2 i ⟨t, hi, hd, hl⟩
      · exact h1 i ⟨t, hi, hd⟩
    refine (clean_iff hp).1 fun i j t u hij ht hu ho => h3 i ⟨j, t, u, hij, ht, hu, ?_, ?_, ho⟩
    · exact (proper_iff_line t).1 (hp t (List.mem_of_getElem? ht))
    · exact (proper_iff_line u).1 (hp u (List.mem_of_getElem? hu))
  · rintro ⟨hc, ho⟩
    refine ⟨?_, ?_, ?_⟩
    · rintro i ⟨t, ht, hd⟩
      obtain ⟨d1, d2, d3⟩ := proper_distinct (hc.proper t (List.mem_of_getElem? ht))
      exact hd ⟨d1, d2, d3.symm⟩
    · rintro i ⟨t, ht, -, hl⟩
      exact (proper_iff_line t).1 (hc.proper t (List.mem_of_getElem? ht)) hl
    · rintro i ⟨j, t, u, hij, ht, hu, -, -, hov⟩
      exact (clean_iff hc.proper).2 ⟨hc, ho⟩ i j t u hij ht hu hov

/-- **C92, edges.** Triangles that bound a set, and meet in common vertices and edges only, traverse every edge equally often in both directions. -/
theorem C92_closed {ts : List (Tri P3)} {χ : P3 → Prop} (hc : Complex ts) (ho : Once ts) (hb : Spec.Side.Bounds ts χ) (p q : P3) : uses ts p q = uses ts q p := Space.closed hc ho hb p q

/-- **C92, solids.** In a solid, whatever its set, no boundary edges, inconsistent edges, degenerate faces or overlapping faces are found. -/
theorem C92_solid {D : Type} {r : Region P3 D} {ts : List (Tri P3)} {χ : P3 → Prop} (hr : IsSolid r ts χ) {c : Fin 8 → Nat} (h : Faults r.boundary.points ts c) : c 2 = 0 ∧ c 3 = 0 ∧ c 5 = 0 ∧ c 6 = 0 ∧ c 7 = 0 := by
  have key := C92_closed hr.complex hr.once hr.bounds
  refine ⟨(counted_none h.boundary).2 ?_, (counted_none h.inconsistent).2 ?_, (C92_conditions h).2 ⟨hr.complex, hr.once⟩⟩
  · rintro e ⟨p, q, -, hu⟩
    have := key p q
    omega
  · rintro e ⟨p, q, -, h1, h2⟩
    have := key p q
    omega

/-- **C92, results.** Whatever the operands, a vertex of the result of an operation belongs to a face: no isolated vertices are found. -/
theorem C92_isolated {D : Type} {bb : Builder P3 D} {op : Op} {pf : Bool} {r : Region P3 D} (h : bb.run op pf = ok r) {ts : List (Tri P3)} (hc : HasCorners r.boundary.points r.boundary.faces ts) {c : Fin 8 → Nat}
    (hf : Faults r.boundary.points ts c) : c 0 = 0 := by
  refine (counted_none hf.isolated).2 ?_
  rintro p ⟨hp, hn⟩
  obtain ⟨v, hv, rfl⟩ := List.getElem_of_mem hp
  obtain ⟨f, hff, hvf⟩ := run_used h v hv
  obtain ⟨t, ht, a1, a2, a3⟩ := forall₂_mem_left hc hff
  apply hn t ht
  have e : r.boundary.points[v]? = some r.boundary.points[v] := List.getElem?_eq_getElem hv
  simp only [Tri.toList, List.mem_cons, List.not_mem_nil, or_false] at hvf ⊢
  rcases hvf with rfl | rfl | rfl
  · exact .inl (Option.some.inj (e.symm.trans a1))
  · exact .inr (.inl (Option.some.inj (e.symm.trans a2)))
  · exact .inr (.inr (Option.some.inj (e.symm.trans a3)))

/-- **C92, results.** Where operations are right (C73): of the eight kinds of defects, only non-manifold vertices and edges are found in results. -/
theorem C92_boolean {D : Type} {E : Corefine.Env} {orig : Bool → List (Tri P3)} {χ : Bool → P3 → Prop} {a b : Region P3 D} (ha : IsSolid a (orig true) (χ true)) (hb : IsSolid b (orig false) (χ false)) (hE : E.Valid orig) (hg : NoFourOnCircle orig)
    (hman : ManifoldWhereCoinciding orig) {E' : Mix.Env} (hE' : E'.Valid orig) {bb : Builder P3 D} {w : Global.Warnings} (h : Mix.Built E' (Corefine.Gives E) a b bb w) (op : Op) (pf : Bool) :
    ∃ r ts, bb.run op pf = ok r ∧ HasCorners r.boundary.points r.boundary.faces ts ∧ ∀ c, Faults r.boundary.points ts c → ∀ i, c i ≠ 0 → i = 1 ∨ i = 4 := by
  obtain ⟨-, r, hr, ts, χ', hs, -⟩ := C73_boolean ha hb hE hg hman hE' h op pf
  refine ⟨r, ts, hr, hs.corners, fun c hc i hi => ?_⟩
  obtain ⟨h2, h3, h5, h6, h7⟩ := C92_solid hs hc
  have h0 := C92_isolated hr hs.corners hc
  fin_cases i
  all_goals first | (left; rfl) | (right; rfl) | (exfalso; apply hi; assumption)

/-! ## Examples -/

/-- Three tetrahedra in a row: edges at the hinges are not manifold, but are traversed twice in both directions. -/
example : (∀ p q, uses chain p q = uses chain q p) ∧ uses chain ⟨0, 0, 0⟩ ⟨4, 0, 0⟩ = 2 ∧ NonManifoldEdge chain s(⟨0, 0, 0⟩, ⟨4, 0, 0⟩) :=
  ⟨C92_closed chain_complex chain_once chain_bounds, by decide +kernel, _, _, rfl, by decide +kernel⟩

/-- A tetrahedron and, away from it, one with the inside out. -/
def discord : List (Tri P3) := Space.tetra ⟨0, 0, 0⟩ ⟨4, 0, 0⟩ ⟨0, 4, 0⟩ ⟨0, 0, 4⟩ ++ (Space.tetra ⟨10, 0, 0⟩ ⟨14, 0, 0⟩ ⟨10, 4, 0⟩ ⟨10, 0, 4⟩).map Tri.flip

theorem away_surface {x : P3} (h : Surface (Space.tetra ⟨10, 0, 0⟩ ⟨14, 0, 0⟩ ⟨10, 4, 0⟩ ⟨10, 0, 4⟩) x) : 10 ≤ x.x := by
  obtain ⟨t, ht, u, v, w, hs, rfl, hu, hv, hw⟩ := h
  simp only [Space.tetra, List.mem_cons, List.not_mem_nil, or_false] at ht
  rcases ht with rfl | rfl | rfl | rfl <;> simp only [combo] <;> linarith

theorem discord_complex : Complex discord := by
  refine part_complex (complex_append (tetra_complex mid_det) (tetra_complex (a := ⟨10, 0, 0⟩) (b := ⟨14, 0, 0⟩) (c := ⟨10, 4, 0⟩) (d := ⟨10, 0, 4⟩) (by decide +kernel)) fun x h1 h2 => ?_) fun t ht => ?_
  · have := mid_surface h1; have := away_surface h2; linarith
  · rcases List.mem_append.1 ht with ht | ht
    · exact ⟨t, List.mem_append_left _ ht, match_refl _⟩
    · obtain ⟨u, hu, rfl⟩ := List.mem_map.1 ht
      exact ⟨u, List.mem_append_right _ hu, by simp [Match, SameTri, Tri.flip, Tri.rot]⟩

theorem discord_once : Once discord := by
  rw [Space.once_pairwise]
  unfold Match
  decide +kernel

/-- Every edge is used once in each direction, or not at all. -/
theorem discord_edges (p q : P3) : uses discord p q = uses discord q p ∧ uses discord p q ≤ 1 := by
  have key : ∀ e ∈ discord.flatMap sides, uses discord e.1 e.2 = 1 ∧ uses discord e.2 e.1 = 1 := by decide +kernel
  have hz : ∀ p q, uses discord p q = 0 ∨ (p, q) ∈ discord.flatMap sides := fun p q => by
    by_cases h : (p, q) ∈ discord.flatMap sides
    · exact .inr h
    · refine .inl (List.count_eq_zero.2 fun hm => h ?_)
      obtain ⟨t, ht, hs⟩ := List.mem_flatMap.1 hm
      exact List.mem_flatMap.2 ⟨t, (List.mem_filter.1 ht).1, hs⟩
  rcases hz p q with h | h
  · rcases hz q p with h' | h'
    · omega
    · have := key _ h'; simp only at this; omega
  · have := key _ h; simp only at this; omega

/-- **C92, what is not found.** There are meshes with none of these defects, in which every edge is used by two faces that are oriented consistently, that do not bound any set. -/
theorem C92_not_enough : ∃ ts : List (Tri P3), Complex ts ∧ Once ts ∧ (∀ p q, uses ts p q = uses ts q p ∧ uses ts p q ≤ 1) ∧ ∀ χ, ¬ Spec.Side.Bounds ts χ := by
  refine ⟨discord, discord_complex, discord_once, discord_edges, fun χ hb => ?_⟩
  have hp : Part discord discord := fun t ht => ⟨t, ht, match_refl _⟩
  obtain ⟨e, he, h1⟩ := hb.jump 0 _ ⟨4 / 3, 4 / 3, 4 / 3⟩ rfl (part_singly discord_complex hp discord_once rfl ⟨1 / 3, 1 / 3, 1 / 3, by norm_num, by norm_num [combo], by simp [Weight], by simp [Weight], by simp [Weight]⟩)
  obtain ⟨e', he', h2⟩ := hb.jump 5 _ ⟨10, 1, 1⟩ rfl (part_singly discord_complex hp discord_once rfl ⟨1 / 2, 1 / 4, 1 / 4, by norm_num, by norm_num [combo, Tri.flip], by simp [Weight], by simp [Weight], by simp [Weight]⟩)
  have s0 : 0 < min e (1 / 100) := lt_min he (by norm_num)
  have s1 : 0 < min e' (1 / 100) := lt_min he' (by norm_num)
  have l0 : min e (1 / 100) ≤ 1 / 100 := min_le_right ..
  have l1 : min e' (1 / 100) ≤ 1 / 100 := min_le_right ..
  have k1 := (h1 _ s0 (min_le_left ..)).2
  have k2 := (h2 _ s1 (min_le_left ..)).1
  refine k1 ((hb.const _ _ ?_).2 k2)
  rintro z ⟨a, b, hab, ha, hb', rfl⟩ hs
  generalize min e (1 / 100) = s at *
  generalize min e' (1 / 100) = s' at *
  obtain ⟨t, ht, hin⟩ := hs
  obtain rfl : b = 1 - a := by linarith
  have m1 := mul_nonneg ha s0.le
  have m2 := mul_nonneg hb' s1.le
  have m3 := mul_nonneg hb' (sub_nonneg.2 l1)
  have m4 := mul_nonneg ha (sub_nonneg.2 l0)
  have m5 : 0 < a * s + (1 - a) * s' := by
    rcases ha.lt_or_eq with h | h
    · have := mul_pos h s0; linarith
    · rw [← h]; linarith
  clear h1 h2 k1 k2
  rcases List.mem_append.1 ht with ht | ht
  · have := (mid_surface ⟨t, ht, hin⟩).2.2.2
    simp only [shift, outward, Geo.sub, Geo.cross, Tri.flip] at this
    norm_num at this
    nlinarith
  · obtain ⟨u, hu, rfl⟩ := List.mem_map.1 ht
    have := away_surface ⟨u, hu, in_match (.inr (by simp [SameTri, Tri.flip])) hin⟩
    simp only [shift, outward, Geo.sub, Geo.cross, Tri.flip] at this
    norm_num at this
    nlinarith

/-! ## The command -/
open Kigumi.IO (Pt Host Numbers Byte)
open Kigumi.Cli (World Name main)
open Kigumi.Program (place places Library)
open Kigumi.Spec.Files (Says)
open Kigumi.Spec.Cli (HasFormat)

theorem no_line (what : String) : defectLine 0 what = [] := rfl

/-- **C92, the command.** For a file of a set with fewer than 2^32 faces, the program exits with status 0 and prints nothing but the numbers of isolated vertices, non-manifold vertices and non-manifold edges. -/
theorem C92_command {h : Host} {N : Numbers} {E : Cli.Env Byte Pt Unit (Builder P3 Unit)} (hL : Library h N E) (hS : Searches E) {rest : List Name} {w : World Byte} {i : Name} {b : List Byte} (hp : E.parseIn rest = ok i) (hf : HasFormat i .kigumi) (hb : w.files i = some b)
    {A S : P3 → Prop} (hs : Says N b A S) {r : Region Pt Unit} (hr : Cli.Reads E w.files i r) (hlen : r.boundary.faces.length < 2 ^ 32) :
    ∃ ts c, HasCorners (places r).boundary.points r.boundary.faces ts ∧ Faults (places r).boundary.points ts c ∧
      main E ("defects".toList :: rest) w = ({ w with out := w.out ++ (defectLine (c 0) " isolated vertices\n" ++ defectLine (c 1) " non-manifold vertices\n" ++ defectLine (c 4) " non-manifold edges\n") }, ok 0) := by
  obtain ⟨ts, χ', hd, -⟩ := says_reads hL hf hb hs hr
  obtain ⟨c, hc, hm⟩ := C91_command hS hp hr hd.corners hlen
  obtain ⟨h2, h3, h5, h6, h7⟩ := C92_solid hd hc
  refine ⟨ts, c, hd.corners, hc, ?_⟩
  rw [hm, h2, h3, h5, h6, h7, no_line, no_line, no_line, no_line, no_line]
  simp only [List.append_nil]

end Kigumi.Props

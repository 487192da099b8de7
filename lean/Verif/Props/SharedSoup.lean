import Verif.Proofs.SharedSoup
import Verif.Props.SideTree

/-! # C100: the spatial index of a soup that several threads use -/
namespace Kigumi.Props
open Kigumi Outcome SharedSoup

section
variable {P T : Type}

/-- **All threads get the same tree**: whatever the schedule, two calls that return give the same tree, which is the one the soup keeps. -/
theorem C100_same_tree {E : SharedSoup.Env P T} {n : Nat} {t0 : Option T} {s : State P T} (h : Steps E (init n t0) s) {i j : Nat} {t u : T}
    (hi : s.threads[i]? = some (.done (some t))) (hj : s.threads[j]? = some (.done (some u))) : t = u ∧ s.tree = some t := by
  have inv := (Inv.init E n t0).steps h
  have h1 : s.tree = some t := inv.loc _ _ hi
  have h2 : s.tree = some u := inv.loc _ _ hj
  rw [h1] at h2
  exact ⟨Option.some.inj h2, h1⟩

/-- **It is the tree of the faces**: one that was there before, or one that the constructor makes of a list of leaves that describes all faces, never of a part of it. -/
theorem C100_complete {E : SharedSoup.Env P T} {n : Nat} {t0 : Option T} {s : State P T} (h : Steps E (init n t0) s) {i : Nat} {t : T}
    (hi : s.threads[i]? = some (.done (some t))) : (t0 = some t) ∨ (t0 = none ∧ ∃ leaves, Spec.Describes E.points E.faces leaves ∧ E.Makes leaves t) := by
  have inv := (Inv.init E n t0).steps h
  have h1 : s.tree = some t := inv.loc _ _ hi
  cases t0 with
  | some u =>
    have := inv.keep u rfl
    rw [h1] at this
    exact Or.inl this.symm
  | none =>
    rcases inv.good t h1 with h2 | ⟨acc, h2, h3, h4⟩
    · cases h2
    · exact Or.inr ⟨rfl, acc, h2.describes h3, h4⟩

/-- **No data race**: two different threads are never both about to access the pointer; and no null pointer is dereferenced. -/
theorem C100_no_race {E : SharedSoup.Env P T} {n : Nat} {t0 : Option T} {s : State P T} (h : Steps E (init n t0) s) :
    (∀ (i j : Nat) pc pc' b b', i ≠ j → s.threads[i]? = some pc → s.threads[j]? = some pc' → ¬ (Touches pc b ∧ Touches pc' b')) ∧
    ∀ i : Nat, s.threads[i]? ≠ some .crashed := by
  have inv := (Inv.init E n t0).steps h
  have inside : ∀ {pc : Pc P T} {b : Bool}, Touches pc b → pc.inside = true := by intro pc b hb; cases hb <;> rfl
  refine ⟨?_, fun i hi => inv.loc _ _ hi⟩
  rintro i j pc pc' b b' hne hi hj ⟨h1, h2⟩
  have e1 := inv.excl _ _ hi (inside h1)
  have e2 := inv.excl _ _ hj (inside h2)
  rw [e1] at e2
  exact hne (Option.some.inj e2)

/-- **Every execution ends**: there is no endless sequence of steps. -/
theorem C100_ends (E : SharedSoup.Env P T) : WellFounded (fun s' s : State P T => Step E s s') :=
  Subrelation.wf (h₂ := (measure fun s : State P T => (s.threads.map (weight E.faces.length)).sum).wf) (fun st => total_lt st)

/-- **No deadlock**: as long as some call has neither returned nor thrown, some thread can make a step, if the constructor of the tree returns for every list of leaves. -/
theorem C100_no_deadlock {E : SharedSoup.Env P T} (hmk : ∀ leaves, Spec.Describes E.points E.faces leaves → ∃ t, E.Makes leaves t) {n : Nat} {t0 : Option T} {s : State P T}
    (h : Steps E (init n t0) s) (hend : ∀ s', ¬ Step E s s') {i : Nat} (hi : i < n) : ∃ r, s.threads[i]? = some (.done r) := by
  have inv := (Inv.init E n t0).steps h
  have hlen : s.threads.length = n := by rw [length_steps h]; simp [init]
  have hfree : s.owner = none := by
    cases ho : s.owner with
    | none => rfl
    | some k =>
      obtain ⟨pc, hk, hin⟩ := inv.own k ho
      obtain ⟨t', o', pc', act⟩ := Act.exists (o := s.owner) (i := k) (fun acc h1 h2 => hmk acc (h1.describes h2)) (inv.loc _ _ hk) hin
      exact absurd (Step.of hk act) (hend _)
  have hpc := List.getElem?_eq_getElem (l := s.threads) (i := i) (by omega)
  generalize s.threads[i] = pc at hpc
  have hout : pc.inside = false := by
    cases hin : pc.inside with
    | false => rfl
    | true => have := inv.excl _ _ hpc hin; rw [hfree] at this; cases this
  cases pc with
  | done r => exact ⟨r, hpc⟩
  | start =>
    refine absurd (Step.of (s := s) (E := E) (t' := s.tree) (o' := some i) (pc' := .entered) hpc ?_) (hend _)
    rw [hfree]; exact .lock
  | crashed => exact (inv.loc _ _ hpc).elim
  | _ => cases hout

/-- **Exceptions**: a call throws only if memory is short or a face refers to a point that is not there; if all calls throw, the soup is as before. -/
theorem C100_throws {E : SharedSoup.Env P T} {n : Nat} {t0 : Option T} {s : State P T} (h : Steps E (init n t0) s) :
    (∀ i : Nat, s.threads[i]? = some (.done none) → E.mayFail ∨ ∃ f ∈ E.faces, E.points.length ≤ f.a ∨ E.points.length ≤ f.b ∨ E.points.length ≤ f.c) ∧
    ((∀ (i : Nat) pc, s.threads[i]? = some pc → pc = .done none) → s.tree = t0 ∧ s.owner = none) := by
  have inv := (Inv.init E n t0).steps h
  refine ⟨?_, ?_⟩
  · intro i hi
    rcases (inv.loc _ _ hi : Throws E) with hm | ⟨f, hf, e, he⟩
    · exact Or.inl hm
    · refine Or.inr ⟨f, hf, ?_⟩
      unfold SoupCache.corners at! at he
      rcases Nat.lt_or_ge f.a E.points.length with h1 | h1
      · rcases Nat.lt_or_ge f.b E.points.length with h2 | h2
        · rcases Nat.lt_or_ge f.c E.points.length with h3 | h3
          · simp only [List.getElem?_eq_getElem h1, List.getElem?_eq_getElem h2, List.getElem?_eq_getElem h3, ok_bind] at he
            cases he
          · exact Or.inr (Or.inr h3)
        · exact Or.inr (Or.inl h2)
      · exact Or.inl h1
  · intro hall
    refine ⟨?_, ?_⟩
    · rcases inv.made with hm | ⟨i, pc, hi, hh⟩
      · exact hm
      · rw [hall i pc hi] at hh; cases hh
    · cases ho : s.owner with
      | none => rfl
      | some k =>
        obtain ⟨pc, hk, hin⟩ := inv.own k ho
        rw [hall k pc hk] at hin; cases hin

end

/-! ## Points are located by several threads -/
section
open Geo Spec.Triangles Spec.Side Side AABB
open Kigumi.Spec (Box HasCorners)
variable {D : Type}

/-- The index of leaves, with the boxes that are computed from their corners. -/
def indexOf (I : Index) (box : Tri P3 → Box) (leaves : List (Nat × Tri P3)) : Index := { I with boxes := leaves.map fun l => box l.2 }

/-- The threads ask for the index of the boundary of a region. -/
def sharedEnv (I : Index) (box : Tri P3 → Box) (r : Region P3 D) (mayFail : Prop) : SharedSoup.Env P3 (Mem (Nat × Box) (Option Box)) :=
  ⟨r.boundary.points, r.boundary.faces, fun leaves mem => (indexOf I box leaves).Built mem, mayFail⟩

theorem describes_corners {points : List P3} {faces : List (Tri Nat)} {ts : List (Tri P3)} (h : HasCorners points faces ts) {leaves : List (Nat × Tri P3)}
    (hd : Spec.Describes points faces leaves) : leaves.map (·.2) = ts := by
  have hlen := List.Forall₂.length_eq h
  apply List.ext_getElem?
  intro i
  by_cases hi : i < faces.length
  · have hf := List.getElem?_eq_getElem hi
    obtain ⟨t, h1, h2, h3, h4⟩ := hd.2 i _ hf
    have ht := List.getElem?_eq_getElem (l := ts) (i := i) (by omega)
    obtain ⟨g1, g2, g3⟩ := (List.forall₂_iff_get.1 h).2 i hi (by omega)
    simp only [List.get_eq_getElem] at g1 g2 g3
    rw [List.getElem?_map, h1, ht]
    rw [g1] at h2; rw [g2] at h3; rw [g3] at h4
    cases t
    simp only [Option.map_some]
    congr 1
    generalize hx : ts[i] = x at *
    cases x
    simp_all
  · rw [List.getElem?_eq_none (by rw [List.length_map, hd.1]; omega), List.getElem?_eq_none (by omega)]

/-- **Points can be located by several threads at once**: with the tree that a thread gets while others ask for it too, `bounded_side` gives the same answer for every point, exceptions included, as with any other tree
that one thread has built. -/
theorem C100_side {I : Index} {box : Tri P3 → Box} {r : Region P3 D} {ts : List (Tri P3)} (hr : WithBoundary r ts) (hbox : ∀ t ∈ ts, ∀ p, InHull t p → (box t).Mem p)
    (harr : ∀ k l, (I.arr k l).Perm l) (hmeets : ∀ (b : Box) p q, I.meets b p q = true ↔ ∃ x, b.Mem x ∧ OnRay p q x) {mayFail : Prop} {n : Nat}
    {s : State P3 (Mem (Nat × Box) (Option Box))} (h : Steps (sharedEnv I box r mayFail) (init n none) s) {i : Nat} {mem : Mem (Nat × Box) (Option Box)}
    (hi : s.threads[i]? = some (.done (some mem))) {inter : P3 → P3 → P3 → P3 → P3 → Hit} {partialSort : List (ℚ × Nat) → List (ℚ × Nat)} (hh : RayHits ts inter partialSort)
    {E : Side.Env} (hE : E.Valid ts) (p : P3) :
    boundedSide (({ I with boxes := ts.map box } : Index).env mem inter partialSort) r p = boundedSide E r p := by
  rcases C100_complete h hi with h0 | ⟨-, leaves, hd, hm⟩
  · cases h0
  · have hc := describes_corners hr.2.2 hd
    have hbs : (indexOf I box leaves) = { I with boxes := ts.map box } := by
      unfold indexOf
      rw [← hc, List.map_map]
      rfl
    have hm' : (indexOf I box leaves).Built mem := hm
    rw [hbs] at hm'
    have hx : RayIndex { I with boxes := ts.map box } ts := by
      refine ⟨⟨by simp, ?_⟩, harr, hmeets⟩
      intro i t b ht hb q hq
      have hb' : (ts.map box)[i]? = some b := hb
      rw [List.getElem?_map, ht] at hb'
      cases hb'
      exact hbox t (List.mem_of_getElem? ht) q hq
    exact C68_determined hr (C83_valid hx hm' hh) hE p

end

/-! ## Executions -/

/-- A soup with one face; the tree is the list of its leaves. -/
def oneFace : SharedSoup.Env Nat (List (Nat × Tri Nat)) := ⟨[7, 8, 9], [⟨2, 0, 1⟩], fun leaves t => t = leaves, False⟩

/-- Two threads: the second one builds the tree; the first one comes while it does, waits, and finds the tree. -/
example : Steps oneFace (init 2 none) ⟨some [(0, ⟨9, 7, 8⟩)], none, [.done (some [(0, ⟨9, 7, 8⟩)]), .done (some [(0, ⟨9, 7, 8⟩)])]⟩ := by
  have s1 : Step oneFace (init 2 none) ⟨none, some 1, [.start, .entered]⟩ := .of (i := 1) rfl .lock
  have s2 : Step oneFace ⟨none, some 1, [.start, .entered]⟩ ⟨none, some 1, [.start, .collecting []]⟩ := .of (i := 1) rfl .missing
  have s3 : Step oneFace ⟨none, some 1, [.start, .collecting []]⟩ ⟨none, some 1, [.start, .collecting [(0, ⟨9, 7, 8⟩)]]⟩ := .of (i := 1) rfl (.leaf (f := ⟨2, 0, 1⟩) rfl rfl)
  have s4 : Step oneFace ⟨none, some 1, [.start, .collecting [(0, ⟨9, 7, 8⟩)]]⟩ ⟨some [(0, ⟨9, 7, 8⟩)], some 1, [.start, .ready]⟩ := .of (i := 1) rfl (.make rfl rfl)
  have s5 : Step oneFace ⟨some [(0, ⟨9, 7, 8⟩)], some 1, [.start, .ready]⟩ ⟨some [(0, ⟨9, 7, 8⟩)], some 1, [.start, .leaving (some [(0, ⟨9, 7, 8⟩)])]⟩ := .of (i := 1) rfl .ret
  have s6 : Step oneFace ⟨some [(0, ⟨9, 7, 8⟩)], some 1, [.start, .leaving (some [(0, ⟨9, 7, 8⟩)])]⟩ ⟨some [(0, ⟨9, 7, 8⟩)], none, [.start, .done (some [(0, ⟨9, 7, 8⟩)])]⟩ := .of (i := 1) rfl .unlock
  have s7 : Step oneFace ⟨some [(0, ⟨9, 7, 8⟩)], none, [.start, .done (some [(0, ⟨9, 7, 8⟩)])]⟩ ⟨some [(0, ⟨9, 7, 8⟩)], some 0, [.entered, .done (some [(0, ⟨9, 7, 8⟩)])]⟩ := .of (i := 0) rfl .lock
  have s8 : Step oneFace ⟨some [(0, ⟨9, 7, 8⟩)], some 0, [.entered, .done (some [(0, ⟨9, 7, 8⟩)])]⟩ ⟨some [(0, ⟨9, 7, 8⟩)], some 0, [.ready, .done (some [(0, ⟨9, 7, 8⟩)])]⟩ := .of (i := 0) rfl .found
  have s9 : Step oneFace ⟨some [(0, ⟨9, 7, 8⟩)], some 0, [.ready, .done (some [(0, ⟨9, 7, 8⟩)])]⟩ ⟨some [(0, ⟨9, 7, 8⟩)], some 0, [.leaving (some [(0, ⟨9, 7, 8⟩)]), .done (some [(0, ⟨9, 7, 8⟩)])]⟩ := .of (i := 0) rfl .ret
  have s10 : Step oneFace ⟨some [(0, ⟨9, 7, 8⟩)], some 0, [.leaving (some [(0, ⟨9, 7, 8⟩)]), .done (some [(0, ⟨9, 7, 8⟩)])]⟩ ⟨some [(0, ⟨9, 7, 8⟩)], none, [.done (some [(0, ⟨9, 7, 8⟩)]), .done (some [(0, ⟨9, 7, 8⟩)])]⟩ := .of (i := 0) rfl .unlock
  exact ((((((((((Steps.refl.step s1).step s2).step s3).step s4).step s5).step s6).step s7).step s8).step s9).step s10)

/-- A face with a point that is not there: a call throws, and the mutex is free for the next. -/
example : Steps { oneFace with faces := [⟨2, 0, 5⟩] } (init 2 none) ⟨none, some 1, [.done none, .entered]⟩ := by
  have s1 : Step { oneFace with faces := [⟨2, 0, 5⟩] } (init 2 none) ⟨none, some 0, [.entered, .start]⟩ := .of (i := 0) rfl .lock
  have s2 : Step { oneFace with faces := [⟨2, 0, 5⟩] } ⟨none, some 0, [.entered, .start]⟩ ⟨none, some 0, [.collecting [], .start]⟩ := .of (i := 0) rfl .missing
  have s3 : Step { oneFace with faces := [⟨2, 0, 5⟩] } ⟨none, some 0, [.collecting [], .start]⟩ ⟨none, some 0, [.leaving none, .start]⟩ := .of (i := 0) rfl (.bad (f := ⟨2, 0, 5⟩) (e := "out_of_range") rfl rfl)
  have s4 : Step { oneFace with faces := [⟨2, 0, 5⟩] } ⟨none, some 0, [.leaving none, .start]⟩ ⟨none, none, [.done none, .start]⟩ := .of (i := 0) rfl .unlock
  have s5 : Step { oneFace with faces := [⟨2, 0, 5⟩] } ⟨none, none, [.done none, .start]⟩ ⟨none, some 1, [.done none, .entered]⟩ := .of (i := 1) rfl .lock
  exact (((((Steps.refl.step s1).step s2).step s3).step s4).step s5)

example : ∀ leaves, Spec.Describes oneFace.points oneFace.faces leaves → ∃ t, oneFace.Makes leaves t := fun leaves _ => ⟨leaves, rfl⟩

end Kigumi.Props

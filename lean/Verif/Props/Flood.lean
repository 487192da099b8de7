import Verif.Props.Mesh
import Verif.Proofs.Local
import Verif.Spec.Flood

/-! # C25: tag propagation on a mesh -/
namespace Kigumi.Local
open Kigumi TagProg Global Outcome
open Kigumi.Flood (set_same set_other)

/-- The faces around a face of a mesh, with border edges not crossed; and the operand of each face. -/
def meshEnv (fs : List (Tri Nat)) (m : Mesh.Mesh) (border : List (Nat × Nat)) (fromLeft : Nat → Bool) : Env :=
  ⟨fs.length, fun i => match Mesh.aroundFace m border i with | ok l => l | _ => [], fromLeft⟩

theorem meshEnv_nbr {fs : List (Tri Nat)} {m : Mesh.Mesh} (h : Mesh.Finalized fs m) (border : List (Nat × Nat)) (fromLeft : Nat → Bool) :
    (∀ f g, g ∈ (meshEnv fs m border fromLeft).nbr f → Spec.SharesNonBorder fs border f g) ∧
    (∀ f g, f ≠ g → Spec.SharesNonBorder fs border f g → g ∈ (meshEnv fs m border fromLeft).nbr f) := by
  have hm : m.faces = fs := by obtain ⟨s, -, -, rfl⟩ := h; rfl
  refine ⟨?_, ?_⟩
  · intro f g hg
    by_cases hf : f < fs.length
    · obtain ⟨l, h1, h2, -, -⟩ := Props.C24_faces_around_face h border hf
      simp only [meshEnv, h1] at hg
      exact h2 g hg
    · have : Mesh.aroundFace m border f = exn "out_of_range" := by
        unfold Mesh.aroundFace
        have : at! m.faces f = exn "out_of_range" := by
          unfold at!; rw [hm, List.getElem?_eq_none (by omega)]
        rw [this]; rfl
      simp [meshEnv, this] at hg
  · intro f g hne hsh
    have hf : f < fs.length := by
      obtain ⟨t, v, w, ht, -⟩ := hsh
      by_contra hc
      rw [List.getElem?_eq_none (by omega)] at ht; simp at ht
    obtain ⟨l, h1, -, h3, -⟩ := Props.C24_faces_around_face h border hf
    simp only [meshEnv, h1]
    exact h3 g (Ne.symm hne) hsh

theorem shares_lt {fs : List (Tri Nat)} {border : List (Nat × Nat)} {f g : Nat} (h : Spec.SharesNonBorder fs border f g) : g < fs.length := by
  obtain ⟨_, _, _, _, _, _, ⟨t, ht, _⟩, _⟩ := h
  by_contra hc
  rw [List.getElem?_eq_none (by omega)] at ht; simp at ht

theorem meshEnv_lt {fs : List (Tri Nat)} {m : Mesh.Mesh} (h : Mesh.Finalized fs m) (border : List (Nat × Nat)) (fromLeft : Nat → Bool) :
    ∀ f, ∀ g ∈ (meshEnv fs m border fromLeft).nbr f, g < (meshEnv fs m border fromLeft).n :=
  fun f g hg => shares_lt ((meshEnv_nbr h border fromLeft).1 f g hg)

/-- Running `flood` alone is an execution of the flood model with a single activity. -/
theorem floodLoop_run {E : Env} {tag : Tag} (fl : Warnings) {seed : Nat} {tags0 : Nat → Tag} (htag : tag ≠ .unknown)
    (fuel : Nat) (pending queue : List Nat) (w : Warnings) : ∀ (k : Nat) (c : Flood.Cfg), Flood.Exec ⟨E.nbr, fun _ => tag⟩ [seed] tags0 k c →
    c.phase seed = .running pending queue → w = (if c.warn seed then fl else .none) → ∀ tags' w',
    (floodLoop E tag fl .ret fuel pending queue w).run c.tags = some (tags', w') →
    ∃ k' c', Flood.Exec ⟨E.nbr, fun _ => tag⟩ [seed] tags0 k' c' ∧ c'.phase seed = .done ∧ c'.tags = tags' ∧ w' = (if c'.warn seed then fl else .none) := by
  fun_induction floodLoop E tag fl .ret fuel pending queue w with
  | case1 fuel w =>
    intro k c hex hph hw tags' w' hrun
    simp only [Prog.run, Option.some.injEq, Prod.mk.injEq] at hrun
    obtain ⟨rfl, rfl⟩ := hrun
    exact ⟨_, _, hex.step (r := seed) (by simp) (.finish hph), by simp [set_same], rfl, hw⟩
  | case2 w f q => intro k c _ _ _ tags' w' hrun; simp [Prog.run] at hrun
  | case3 w f q fuel ih =>
    intro k c hex hph hw tags' w' hrun
    exact ih _ _ (hex.step (r := seed) (by simp) (.pop hph)) (by simp [set_same]) hw tags' w' hrun
  | case4 fuel w g p q ih1 ih2 =>
    intro k c hex hph hw tags' w' hrun
    simp only [Prog.run] at hrun
    by_cases hu : c.tags g = .unknown
    · simp only [hu, if_true, Prog.run] at hrun
      exact ih1 _ _ (hex.step (r := seed) (by simp) (.spread hph hu)) (by simp [set_same]) hw tags' w' hrun
    · simp only [hu, if_false, Prog.run] at hrun
      by_cases hd : c.tags g = tag
      · refine ih2 (c.tags g) _ _ (hex.step (r := seed) (by simp) (.same hph hu hd)) (by simp [set_same]) ?_ tags' w' ?_
        · simp [hd, hw]
        · simpa [hd] using hrun
      · refine ih2 (c.tags g) _ _ (hex.step (r := seed) (by simp) (.differ hph hu hd)) (by simp [set_same]) ?_ tags' w' ?_
        · simp only [set_same, if_true, ne_eq, hd, not_false_eq_true, dite_true]
          rw [hw]
          split <;> simp [Warnings.or, Warnings.none]
        · simpa [hd] using hrun

theorem floodLoop_runs {E : Env} (hn : ∀ f, ∀ g ∈ E.nbr f, g < E.n) {tag : Tag} (fl : Warnings) (htag : tag ≠ .unknown)
    (fuel : Nat) (pending queue : List Nat) (w : Warnings) : ∀ tags : Nat → Tag, (∀ g ∈ pending, g < E.n) → queue.length + Flood.unk E.n tags ≤ fuel →
    ∃ r, (floodLoop E tag fl .ret fuel pending queue w).run tags = some r := by
  fun_induction floodLoop E tag fl .ret fuel pending queue w with
  | case1 fuel w => intro tags _ _; exact ⟨_, rfl⟩
  | case2 w f q => intro tags _ h; simp at h
  | case3 w f q fuel ih => intro tags hp h; exact ih tags (hn f) (by simp at h; omega)
  | case4 fuel w g p q ih1 ih2 =>
    intro tags hp h
    simp only [Prog.run]
    by_cases hu : tags g = .unknown
    · simp only [hu, if_true, Prog.run]
      refine ih1 _ (fun x hx => hp x (by simp [hx])) ?_
      have := Flood.unk_set_lt htag (hp g (by simp)) hu
      simp; omega
    · simp only [hu, if_false, Prog.run]
      have := ih2 (tags g) tags (fun x hx => hp x (by simp [hx])) h
      simpa using this

/-- The result of propagating from a face, in terms of the neighbour lists. -/
theorem flood_run {E : Env} (hn : ∀ f, ∀ g ∈ E.nbr f, g < E.n) {seed : Nat} {tags : Nat → Tag} (ht : tags seed ≠ .unknown) :
    ∃ tags' w, (flood E seed .ret).run tags = some (tags', w) ∧
      (∀ g, Spec.Reach (R E.nbr) tags seed g → tags' g = tags seed) ∧
      (∀ g, ¬ Spec.Reach (R E.nbr) tags seed g → tags' g = tags g) ∧
      ((w = flag (E.fromLeft seed) ∧ ∃ f g, Spec.Reach (R E.nbr) tags seed f ∧ g ∈ E.nbr f ∧ tags g ≠ .unknown ∧ tags g ≠ tags seed) ∨
       (w = .none ∧ ∀ f g, Spec.Reach (R E.nbr) tags seed f → g ∈ E.nbr f → tags g = .unknown ∨ tags g = tags seed)) := by
  obtain ⟨⟨tags', w⟩, hr⟩ := floodLoop_runs hn (flag (E.fromLeft seed)) ht (E.n + 1) [] [seed] .none tags (by simp) (by
    have := Flood.unk_le E.n tags; simp; omega)
  have hset : Flood.set tags seed (tags seed) = tags := by
    funext x
    by_cases hx : x = seed
    · subst hx; exact set_same _ _ _
    · exact set_other _ _ hx
  have hex : Flood.Exec ⟨E.nbr, fun _ => tags seed⟩ [seed] tags 1 ⟨tags, Flood.set (fun _ => .ready) seed (.running [] [seed]), fun _ => false⟩ := by
    have := Flood.Exec.step (P := ⟨E.nbr, fun _ => tags seed⟩) (R := [seed]) (tags0 := tags) .init (r := seed) (by simp) (.start rfl)
    simp only [hset] at this
    exact this
  obtain ⟨k', c, h1, h2, h3, h4⟩ := floodLoop_run (flag (E.fromLeft seed)) ht _ _ _ _ _ _ hex (by simp [set_same]) (by simp) tags' w hr
  have hs : Flood.Seeds ⟨E.nbr, fun _ => tags seed⟩ [seed] tags := by
    refine ⟨by simpa using ht, by simp, ?_⟩
    intro r hr r' hr' _ _ _
    simp at hr hr'; rw [hr, hr']
  obtain ⟨f1, f2, f3⟩ := Flood.final_tags hs h1 (by intro r hr; simp at hr; rw [hr]; exact h2)
  have hreach : ∀ g, Spec.Reach (R E.nbr) tags seed g → tags' g = tags seed := by
    intro g hg; rw [← h3]; exact f1 seed (by simp) g hg
  have hnot : ∀ g, ¬ Spec.Reach (R E.nbr) tags seed g → tags' g = tags g := by
    intro g hg; rw [← h3]; exact f2 g (by intro r hr; simp at hr; subst hr; exact hg)
  refine ⟨tags', w, hr, hreach, hnot, ?_⟩
  have f3 := f3 seed (by simp)
  rw [h4]
  by_cases hw : c.warn seed = true
  · left
    simp only [hw, if_true, true_and]
    obtain ⟨f, g, a, b, d⟩ := f3.1 hw
    simp only [h3] at d
    refine ⟨f, g, a, b, ?_, ?_⟩
    · intro hu; exact d (hreach g (.step a b hu))
    · intro he
      by_cases hg : Spec.Reach (R E.nbr) tags seed g
      · exact d (hreach g hg)
      · exact d ((hnot g hg).trans he)
  · right
    simp only [hw]
    refine ⟨by simp, ?_⟩
    intro f g hf hg
    by_contra hc
    push Not at hc
    refine hw (f3.2 ⟨f, g, hf, hg, ?_⟩)
    rw [h3]
    by_cases hgr : Spec.Reach (R E.nbr) tags seed g
    · cases hgr with
      | seed => exact absurd rfl hc.2
      | step _ _ hu => exact absurd hu hc.1
    · rw [hnot g hgr]; exact hc.2

theorem reach_iff {fs : List (Tri Nat)} {m : Mesh.Mesh} (h : Mesh.Finalized fs m) (border : List (Nat × Nat)) (fromLeft : Nat → Bool) {tags : Nat → Tag} {r g : Nat} :
    Spec.Reach (R (meshEnv fs m border fromLeft).nbr) tags r g ↔ Spec.Reach (Spec.SharesNonBorder fs border) tags r g := by
  obtain ⟨h1, h2⟩ := meshEnv_nbr h border fromLeft
  constructor
  · intro hr
    induction hr with
    | seed => exact .seed
    | step _ hg hu ih => exact .step ih (h1 _ _ hg) hu
  · intro hr
    induction hr with
    | seed => exact .seed
    | @step f g _ hg hu ih =>
      by_cases hfg : f = g
      · subst hfg; exact ih
      · exact .step ih (h2 f g hfg hg) hu

end Kigumi.Local

namespace Kigumi.Props
open Kigumi Local TagProg Global

/-- **Tag propagation.** On every finalised mesh, for every border set, tagging and classified seed, the propagation returns; it gives the tag of the seed to exactly the unclassified faces
reachable from it through unclassified faces without crossing a border edge, leaves every other face as it was, and returns the warning of the seed's operand if a reached face
is next to a face with a different classification, and no warning otherwise. -/
theorem C25_propagation {fs : List (Tri Nat)} {m : Mesh.Mesh} (h : Mesh.Finalized fs m) (border : List (Nat × Nat)) (fromLeft : Nat → Bool) (seed : Nat)
    (tags : Nat → Tag) (ht : tags seed ≠ .unknown) :
    ∃ tags' w, (flood (meshEnv fs m border fromLeft) seed .ret).run tags = some (tags', w) ∧
      (∀ g, Spec.Reach (Spec.SharesNonBorder fs border) tags seed g → tags' g = tags seed) ∧
      (∀ g, ¬ Spec.Reach (Spec.SharesNonBorder fs border) tags seed g → tags' g = tags g) ∧
      (let meets := ∃ f g, Spec.Reach (Spec.SharesNonBorder fs border) tags seed f ∧ Spec.SharesNonBorder fs border f g ∧ tags g ≠ .unknown ∧ tags g ≠ tags seed
       (meets → w = if fromLeft seed then Warnings.first else Warnings.second) ∧ (¬ meets → w = Warnings.none)) := by
  obtain ⟨tags', w, h1, h2, h3, h4⟩ := flood_run (meshEnv_lt h border fromLeft) (seed := seed) ht
  obtain ⟨n1, n2⟩ := meshEnv_nbr h border fromLeft
  refine ⟨tags', w, h1, fun g hg => h2 g ((reach_iff h border fromLeft).2 hg), fun g hg => h3 g (fun hr => hg ((reach_iff h border fromLeft).1 hr)), ?_, ?_⟩
  · rintro ⟨f, g, hf, hg, hu, hd⟩
    rcases h4 with ⟨hw, -⟩ | ⟨-, hno⟩
    · exact hw
    · exfalso
      have hfr := (reach_iff h border fromLeft).2 hf
      have hne : f ≠ g := by
        rintro rfl
        cases hf with
        | seed => exact hd rfl
        | step _ _ h => exact hu h
      rcases hno f g hfr (n2 f g hne hg) with h | h
      · exact hu h
      · exact hd h
  · intro hno
    rcases h4 with ⟨-, f, g, hf, hg, hu, hd⟩ | ⟨hw, -⟩
    · exact absurd ⟨f, g, (reach_iff h border fromLeft).1 hf, n1 f g hg, hu, hd⟩ hno
    · exact hw

/-- A strip of four faces; the flood from face 0 crosses the unclassified face 1 and meets face 2, which has another tag; face 3 stays unclassified. -/
example : ((Local.flood (meshEnv demoFaces (Mesh.finalize (Mesh.ofFaces demoFaces) demoSorted) [] (fun _ => true)) 0 .ret).run
      (fun i => if i = 0 then .interior else if i = 2 then .exterior else .unknown)).map (fun r => ((List.range 4).map r.1, r.2)) =
    some ([.interior, .interior, .exterior, .unknown], Warnings.first) := by
  generalize hE : meshEnv demoFaces (Mesh.finalize (Mesh.ofFaces demoFaces) demoSorted) [] (fun _ => true) = E
  have h0 : E.nbr 0 = [0, 1] := by rw [← hE]; decide +kernel
  have h1 : E.nbr 1 = [0, 2] := by rw [← hE]; decide +kernel
  have hn : E.n = 4 := by rw [← hE]; rfl
  have hl : E.fromLeft 0 = true := by rw [← hE]; rfl
  simp [flood, floodLoop, Prog.run, h0, h1, hn, hl, Flood.set, flag]
  decide

end Kigumi.Props

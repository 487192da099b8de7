import Verif.Model.Parallel
import Verif.Tactics

/-! Fork/join programs with disjoint footprints are deterministic. -/
namespace Kigumi.Prog

variable {M Cell V : Type}

/-- Memories as maps from cells to values through a reading function. -/
structure View (M Cell V : Type) where
  get : M → Cell → V
  ext : ∀ m m', (∀ c, get m c = get m' c) → m = m'

/-- The action reads and writes only cells in `F`. -/
structure Local (vw : View M Cell V) (F : Cell → Prop) (a : M → M) : Prop where
  out : ∀ m c, ¬ F c → vw.get (a m) c = vw.get m c
  dep : ∀ m m', (∀ c, F c → vw.get m c = vw.get m' c) → ∀ c, F c → vw.get (a m) c = vw.get (a m') c

theorem Local.mono {vw : View M Cell V} {F F' : Cell → Prop} {a : M → M} (h : Local vw F a) (hs : ∀ c, F c → F' c) :
    Local vw F' a := by
  refine ⟨fun m c hc => h.out m c (fun hf => hc (hs c hf)), ?_⟩
  intro m m' hm c hc
  by_cases hf : F c
  · exact h.dep m m' (fun c hc => hm c (hs c hc)) c hf
  · rw [h.out m c hf, h.out m' c hf]; exact hm c hc

theorem Local.id {vw : View M Cell V} {F : Cell → Prop} : Local vw F id := ⟨fun _ _ _ => rfl, fun _ _ h => h⟩

theorem Local.comp {vw : View M Cell V} {F : Cell → Prop} {a b : M → M} (ha : Local vw F a) (hb : Local vw F b) :
    Local vw F (fun m => b (a m)) := by
  refine ⟨fun m c hc => by rw [hb.out _ c hc, ha.out _ c hc], ?_⟩
  intro m m' hm c hc
  exact hb.dep _ _ (ha.dep m m' hm) c hc

theorem commute {vw : View M Cell V} {F G : Cell → Prop} {a b : M → M} (ha : Local vw F a) (hb : Local vw G b)
    (hd : ∀ c, F c → ¬ G c) (m : M) : a (b m) = b (a m) := by
  apply vw.ext
  intro c
  by_cases hf : F c
  · have hg := hd c hf
    rw [hb.out _ c hg]
    exact ha.dep _ _ (fun c hc => hb.out m c (hd c hc)) c hf
  · rw [ha.out _ c hf]
    by_cases hg : G c
    · symm
      exact hb.dep _ _ (fun c hc => ha.out m c (fun h => hd c h hc)) c hg
    · rw [hb.out _ c hg, hb.out _ c hg, ha.out _ c hf]

/-- All actions stay within `F` and parallel branches have disjoint footprints. -/
inductive Sep (vw : View M Cell V) : (Cell → Prop) → Prog M → Prop
  | skip {F} : Sep vw F .skip
  | act {F a} : Local vw F a → Sep vw F (.act a)
  | seq {F p q} : Sep vw F p → Sep vw F q → Sep vw F (.seq p q)
  | par {F G H p q} : Sep vw F p → Sep vw G q → (∀ c, F c → ¬ G c) → (∀ c, F c → H c) → (∀ c, G c → H c) → Sep vw H (.par p q)

theorem Sep.mono {vw : View M Cell V} {F F' : Cell → Prop} {p : Prog M} (h : Sep vw F p) (hs : ∀ c, F c → F' c) : Sep vw F' p := by
  induction h generalizing F' with
  | skip => exact .skip
  | act h => exact .act (h.mono hs)
  | seq _ _ ih1 ih2 => exact .seq (ih1 hs) (ih2 hs)
  | par h1 h2 hd hF hG _ _ => exact .par h1 h2 hd (fun c h => hs c (hF c h)) (fun c h => hs c (hG c h))

theorem Sep.local_run {vw : View M Cell V} {F : Cell → Prop} {p : Prog M} (h : Sep vw F p) : Local vw F p.run := by
  induction h with
  | skip => exact Local.id
  | act h => exact h
  | seq _ _ ih1 ih2 => exact ih1.comp ih2
  | par _ _ _ hF hG ih1 ih2 => exact (ih1.mono hF).comp (ih2.mono hG)

theorem Sep.step {vw : View M Cell V} {F : Cell → Prop} {p : Prog M} (h : Sep vw F p) : ∀ {a p'}, Step p a p' →
    Sep vw F p' ∧ Local vw F a ∧ ∀ m, p.run m = p'.run (a m) := by
  induction h with
  | skip => intro a p' st; cases st
  | act h => intro a p' st; cases st; exact ⟨.skip, h, fun _ => rfl⟩
  | seq hp hq ih1 ih2 =>
    intro a p' st
    cases st with
    | seqL st =>
      obtain ⟨h1, h2, h3⟩ := ih1 st
      exact ⟨.seq h1 hq, h2, fun m => by simp only [run]; rw [h3]⟩
    | seqNext => exact ⟨hq, Local.id, fun _ => rfl⟩
  | @par F G H p q hp hq hd hF hG ih1 ih2 =>
    intro a p' st
    cases st with
    | parL st =>
      obtain ⟨h1, h2, h3⟩ := ih1 st
      exact ⟨.par h1 hq hd hF hG, h2.mono hF, fun m => by simp only [run]; rw [h3]⟩
    | parR st =>
      obtain ⟨h1, h2, h3⟩ := ih2 st
      refine ⟨.par hp h1 hd hF hG, h2.mono hG, fun m => ?_⟩
      simp only [run]
      rw [h3, commute hp.local_run h2 hd]
    | join => exact ⟨.skip, Local.id, fun _ => rfl⟩

theorem Sep.exec {vw : View M Cell V} {p p' : Prog M} {m m' : M} (h : Exec p m p' m') : ∀ {F : Cell → Prop}, Sep vw F p →
    p.run m = p'.run m' := by
  induction h with
  | refl => intro _ _; rfl
  | step st _ ih =>
    intro F hs
    obtain ⟨h1, -, h3⟩ := hs.step st
    rw [h3, ih h1]

/-- Number of steps a program still takes. -/
def size : Prog M → Nat
  | .skip => 0
  | .act _ => 1
  | .seq p q => p.size + q.size + 1
  | .par p q => p.size + q.size + 1

theorem step_size {p p' : Prog M} {a : M → M} (st : Step p a p') : p'.size < p.size := by
  induction st <;> simp [size] <;> omega

theorem progress (p : Prog M) : p = .skip ∨ ∃ a p', Step p a p' := by
  induction p with
  | skip => exact Or.inl rfl
  | act a => exact Or.inr ⟨a, .skip, .act⟩
  | seq p q ih1 _ =>
    right
    rcases ih1 with rfl | ⟨a, p', st⟩
    · exact ⟨id, q, .seqNext⟩
    · exact ⟨a, _, .seqL st⟩
  | par p q ih1 ih2 =>
    right
    rcases ih1 with rfl | ⟨a, p', st⟩
    · rcases ih2 with rfl | ⟨a, q', st⟩
      · exact ⟨id, _, .join⟩
      · exact ⟨a, _, .parR st⟩
    · exact ⟨a, _, .parL st⟩

theorem exec_complete (p : Prog M) (m : M) : ∃ m', Exec p m .skip m' := by
  generalize hs : p.size = s
  induction s using Nat.strongRecOn generalizing p m with
  | _ s ih =>
    rcases progress p with rfl | ⟨a, p', st⟩
    · exact ⟨m, .refl⟩
    · obtain ⟨m', h⟩ := ih p'.size (by have := step_size st; omega) p' (a m) rfl
      exact ⟨m', .step st h⟩

/-- Two actions of different threads that may both be the next one. -/
inductive Conc : Prog M → (M → M) → (M → M) → Prop
  | seq {p q a b} : Conc p a b → Conc (.seq p q) a b
  | parL {p q a b} : Conc p a b → Conc (.par p q) a b
  | parR {p q a b} : Conc q a b → Conc (.par p q) a b
  | both {p q p' q' a b} : Step p a p' → Step q b q' → Conc (.par p q) a b

theorem Sep.conc {vw : View M Cell V} {F : Cell → Prop} {p : Prog M} {a b : M → M} (hc : Conc p a b) : Sep vw F p →
    ∃ G H : Cell → Prop, (∀ c, G c → ¬ H c) ∧ (∀ c, G c → F c) ∧ (∀ c, H c → F c) ∧ Local vw G a ∧ Local vw H b := by
  induction hc generalizing F with
  | seq _ ih => intro h; cases h with | seq h1 _ => exact ih h1
  | parL _ ih =>
    intro h; cases h with
    | par h1 h2 hd hF hG =>
      obtain ⟨G, H, a1, a2, a3, a4⟩ := ih h1
      exact ⟨G, H, a1, fun c h => hF c (a2 c h), fun c h => hF c (a3 c h), a4⟩
  | parR _ ih =>
    intro h; cases h with
    | par h1 h2 hd hF hG =>
      obtain ⟨G, H, a1, a2, a3, a4⟩ := ih h2
      exact ⟨G, H, a1, fun c h => hG c (a2 c h), fun c h => hG c (a3 c h), a4⟩
  | both s1 s2 =>
    intro h; cases h with
    | par h1 h2 hd hF hG => exact ⟨_, _, hd, hF, hG, (h1.step s1).2.1, (h2.step s2).2.1⟩

theorem Sep.exec_sep {vw : View M Cell V} {p p' : Prog M} {m m' : M} (h : Exec p m p' m') : ∀ {F : Cell → Prop}, Sep vw F p → Sep vw F p' := by
  induction h with
  | refl => intro _ h; exact h
  | step st _ ih => intro F hs; exact ih (hs.step st).1

end Kigumi.Prog

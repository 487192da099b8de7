import Verif.Props.Flood
import Verif.Proofs.LocalTruth
import Mathlib.Tactic.IntervalCases

/-! # C26, C27, C28, C30, C61, C67: classification of the faces of the mixed mesh -/
namespace Kigumi.Local
open Kigumi TagProg Global Outcome
open Kigumi.Flood (set_same set_other)

/-- Sharing a non-border side is symmetric for proper faces. -/
theorem shares_symm {fs : List (Tri Nat)} (hp : Spec.Proper fs) {border : List (Nat × Nat)} {i j : Nat} (h : Spec.SharesNonBorder fs border i j) :
    Spec.SharesNonBorder fs border j i := by
  obtain ⟨f, v, w, hf, hs, hb, ⟨g, hg, hv⟩, ⟨g', hg', hw⟩⟩ := h
  rw [hg] at hg'; cases hg'
  have pf := hp f (List.mem_of_getElem? hf)
  have pg := hp g (List.mem_of_getElem? hg)
  have hb' : ¬ Spec.IsBorder border w v := by
    unfold Spec.IsBorder at *
    rwa [Nat.min_comm, Nat.max_comm]
  have hvw : v ≠ w := by
    rcases hs with ⟨rfl, rfl⟩ | ⟨rfl, rfl⟩ | ⟨rfl, rfl⟩
    · exact pf.1
    · exact pf.2.1
    · exact Ne.symm pf.2.2
  have iv : Spec.Incident fs v i := ⟨f, hf, by rcases hs with ⟨rfl, rfl⟩ | ⟨rfl, rfl⟩ | ⟨rfl, rfl⟩ <;> simp⟩
  have iw : Spec.Incident fs w i := ⟨f, hf, by rcases hs with ⟨rfl, rfl⟩ | ⟨rfl, rfl⟩ | ⟨rfl, rfl⟩ <;> simp⟩
  have side : Spec.IsSide g v w ∨ Spec.IsSide g w v := by
    unfold Spec.IsSide
    rcases hv with hv | hv | hv <;> rcases hw with hw | hw | hw <;> simp [hv, hw] at hvw ⊢
  rcases side with h | h
  · exact ⟨g, v, w, hg, h, hb, iv, iw⟩
  · exact ⟨g, w, v, hg, h, hb', iw, iv⟩

theorem meshEnv_adj {fs : List (Tri Nat)} {m : Mesh.Mesh} (h : Mesh.Finalized fs m) (hp : Spec.Proper fs) (border : List (Nat × Nat)) (fromLeft : Nat → Bool) :
    Adj (meshEnv fs m border fromLeft).nbr (meshEnv fs m border fromLeft).n := by
  refine ⟨meshEnv_lt h border fromLeft, ?_⟩
  intro f g hne hg
  obtain ⟨h1, h2⟩ := meshEnv_nbr h border fromLeft
  exact h2 g f (Ne.symm hne) (shares_symm hp (h1 f g hg))

theorem or_eq_none {a b : Warnings} : Warnings.or a b = .none ↔ a = .none ∧ b = .none := by
  unfold Warnings.or Warnings.none
  constructor
  · intro h
    have key : ∀ a b : BitVec 8, a ||| b = 0 → a = 0 := by
      intro a b h
      ext i hi
      have := congrArg (fun x : BitVec 8 => x.getLsbD i) h
      simp at this
      simpa [BitVec.getLsbD_eq_getElem hi] using this.1
    refine ⟨key a b h, key b a ?_⟩
    rw [BitVec.or_comm]; exact h
  · rintro ⟨rfl, rfl⟩; rfl

theorem fold_or_none {f : Nat → Warnings} (l : List Nat) (a : Warnings) : l.foldl (fun w i => Warnings.or w (f i)) a = .none ↔ a = .none ∧ ∀ i ∈ l, f i = .none := by
  induction l generalizing a with
  | nil => simp
  | cons x l ih => simp only [List.foldl_cons, ih, or_eq_none, List.forall_mem_cons]; tauto

theorem flag_ne (b : Bool) : flag b ≠ .none := by cases b <;> decide

/-- The condition under which around an edge every face is certainly classified. -/
def Full (T : Nat → Tag) (owner : Nat → Bool) (e : List Nat × Option (List Entry)) : Prop :=
  ∃ cs inside, e.2 = some cs ∧ Consistent owner T cs inside ∧ HasPair cs ∧ ∀ x ∈ e.1, x ∈ cs.map (·.fi)

/-- What holds during and after the local classification, for tags restricted by `ok`. -/
theorem local_result_twin {E : Env} {ok : Nat → Tag → Prop} (hn : ∀ f, ∀ g ∈ E.nbr f, g < E.n) (hsp : Spread E ok)
    {edges : List (List Nat × Option (List Entry))} {tags0 : Nat → Tag} (h0 : ∀ g, tags0 g ≠ .unknown → ok g (tags0 g))
    (full : List Nat × Option (List Entry) → Prop)
    (he : ∀ e ∈ edges, ∀ cs, e.2 = some cs → ∃ Ov G, EdgeOK ok cs Ov G ∧ (full e → Exact ok cs Ov G ∧ ∀ x ∈ e.1, x ∈ cs.map (·.fi)))
    {c : Cfg} (hex : Exec (start E edges tags0) c) :
    (∀ g, c.tags g ≠ .unknown → ok g (c.tags g)) ∧ (∀ i, c.prog i ≠ .diverge) ∧
    ∃ W : Nat → Nat → Prop, (∀ g, c.tags g ≠ tags0 g → ∃ i, i < edges.length ∧ W i g) ∧
      ∀ i w, c.prog i = .ret w → (∀ x, W i x → ∀ g ∈ E.nbr x, c.tags g ≠ .unknown) ∧ (Unique ok → w = .none) ∧
        (∀ e, edges[i]? = some e → full e → ∀ x ∈ e.1, c.tags x ≠ .unknown) ∧
        (∀ e, edges[i]? = some e → ∀ x ∈ e.1, Twin e.2 x → c.tags x ≠ .unknown) := by
  obtain ⟨K, W, hi⟩ := TagProg.Inv.exec (ok := ok)
    (Post := fun i K W w => match edges[i]? with | some e => BodyPost E ok e.1 e.2 (full e) K W w | none => w = .none ∧ ∀ x, ¬ W x) (c0 := start E edges tags0) h0 (by
    intro i
    simp only [start]
    cases hei : edges[i]? with
    | none => exact ⟨rfl, by simp⟩
    | some e =>
      obtain ⟨around, sorted⟩ := e
      have hmem := List.mem_of_getElem? hei
      exact body_wp hn hsp _ (fun cs hcs => he _ hmem cs hcs)) hex
  refine ⟨hi.allowed, ?_, W, ?_, ?_⟩
  · intro i hd
    have := hi.wps i
    rw [hd] at this
    exact this
  · intro g hg
    obtain ⟨i, hw⟩ := hi.source g hg
    refine ⟨i, ?_, hw⟩
    by_contra hc
    have hnone : edges[i]? = none := List.getElem?_eq_none (by omega)
    -- an activity without an edge does nothing
    have hstay : ∀ c, Exec (start E edges tags0) c → c.prog i = .ret .none := by
      intro c hc
      induction hc with
      | init => simp [start, hnone]
      | @step c c' j _ st ih =>
        by_cases hj : i = j
        · subst hj; cases st <;> simp_all
        · cases st <;> simp [set_other _ _ hj, ih]
    have := hi.wps i
    rw [hstay c hex, hnone] at this
    exact this.2 g hw
  · intro i w hr
    have := hi.wps i
    rw [hr] at this
    cases hei : edges[i]? with
    | none =>
      rw [hei] at this
      exact ⟨fun x hx => absurd hx (this.2 x), fun _ => this.1, by simp, by simp⟩
    | some e =>
      rw [hei] at this
      obtain ⟨h1, h2, h3, h4⟩ := this
      refine ⟨fun x hx g hg => hi.known i g (h1 x hx g hg), h2, ?_, ?_⟩
      · intro e' he' hf x hx
        cases he'
        exact hi.known i x (h3 hf x hx)
      · intro e' he' x hx ht
        cases he'
        exact hi.known i x (h4 x hx ht)

theorem local_result {E : Env} {ok : Nat → Tag → Prop} (hn : ∀ f, ∀ g ∈ E.nbr f, g < E.n) (hsp : Spread E ok)
    {edges : List (List Nat × Option (List Entry))} {tags0 : Nat → Tag} (h0 : ∀ g, tags0 g ≠ .unknown → ok g (tags0 g))
    (full : List Nat × Option (List Entry) → Prop)
    (he : ∀ e ∈ edges, ∀ cs, e.2 = some cs → ∃ Ov G, EdgeOK ok cs Ov G ∧ (full e → Exact ok cs Ov G ∧ ∀ x ∈ e.1, x ∈ cs.map (·.fi)))
    {c : Cfg} (hex : Exec (start E edges tags0) c) :
    (∀ g, c.tags g ≠ .unknown → ok g (c.tags g)) ∧ (∀ i, c.prog i ≠ .diverge) ∧
    ∃ W : Nat → Nat → Prop, (∀ g, c.tags g ≠ tags0 g → ∃ i, i < edges.length ∧ W i g) ∧
      ∀ i w, c.prog i = .ret w → (∀ x, W i x → ∀ g ∈ E.nbr x, c.tags g ≠ .unknown) ∧ (Unique ok → w = .none) ∧
        (∀ e, edges[i]? = some e → full e → ∀ x ∈ e.1, c.tags x ≠ .unknown) := by
  obtain ⟨h1, h2, W, h3, h4⟩ := local_result_twin hn hsp h0 full he hex
  exact ⟨h1, h2, W, h3, fun i w hr => ⟨(h4 i w hr).1, (h4 i w hr).2.1, (h4 i w hr).2.2.1⟩⟩

theorem result_fold_none {E : Env} {edges : List (List Nat × Option (List Entry))} {ws : Nat → Warnings} {order : List Nat} (hp : order.Perm (List.range edges.length))
    : order.foldl (fun w i => Warnings.or w (ws i)) .none = .none ↔ ∀ i, i < edges.length → ws i = .none := by
  rw [fold_or_none]
  constructor
  · rintro ⟨-, h⟩ i hi
    exact h i (hp.mem_iff.2 (by simpa using hi))
  · intro h
    exact ⟨rfl, fun i hi => h i (by simpa using hp.mem_iff.1 hi)⟩

/-- What holds after the global classification. -/
theorem global_result {nbr : Nat → List Nat} {n : Nat} (ha : Adj nbr n) {side : Nat → Option Tag} (hside : ∀ r t, side r = some t → t = .exterior ∨ t = .interior)
    {fromLeft : Nat → Bool} {tags0 tags : Nat → Tag} {w : Warnings} (h : Global.Result nbr n side fromLeft tags0 tags w) :
    ∃ reps : List Nat, ∃ t : Nat → Tag, representatives nbr tags0 n = some reps ∧ (∀ r ∈ reps, side r = some (t r) ∧ tags0 r = .unknown ∧ r < n) ∧
      (∀ r ∈ reps, ∀ g, Spec.Reach (R nbr) tags0 r g → tags g = t r) ∧
      (∀ g, (∀ r ∈ reps, ¬ Spec.Reach (R nbr) tags0 r g) → tags g = tags0 g) ∧
      (∀ x, x < n → tags0 x = .unknown → ∃ r ∈ reps, ∀ Q : Nat → Prop, Q r → (∀ f, Q f → ∀ g ∈ nbr f, Q g) → Q x) ∧
      (∀ b, (w &&& flag b ≠ .none ↔ ∃ r ∈ reps, fromLeft r = b ∧ ∃ f g, Spec.Reach (R nbr) tags0 r f ∧ g ∈ nbr f ∧ tags g ≠ t r)) := by
  obtain ⟨reps, hr, t, ht, k, c, order, hex, hd, hct, hperm, hw⟩ := h
  obtain ⟨reps', h1, h2, h3, h4, h5⟩ := representatives_spec (tags := tags0) ha
  rw [hr] at h1; cases h1
  have hs : Flood.Seeds ⟨nbr, t⟩ reps tags0 := by
    refine ⟨fun r hr => ?_, fun r hr => Or.inl (h2 r hr).2, h4⟩
    rcases hside r _ (ht r hr) with h | h <;> simp [h]
  obtain ⟨f1, f2, f3⟩ := Flood.final_tags hs hex hd
  refine ⟨reps, t, hr, fun r hr => ⟨ht r hr, (h2 r hr).2, (h2 r hr).1⟩, ?_, ?_, h5, ?_⟩
  · intro r hr g hg; rw [← hct]; exact f1 r hr g hg
  · intro g hg; rw [← hct]; exact f2 g hg
  · intro b
    have key : ∀ (l : List Nat) (a : Warnings), (l.foldl (fun w r => Warnings.or w (if c.warn r then flag (fromLeft r) else .none)) a) &&& flag b ≠ .none ↔
        a &&& flag b ≠ .none ∨ ∃ r ∈ l, fromLeft r = b ∧ c.warn r = true := by
      intro l
      induction l with
      | nil => intro a; simp
      | cons x l ih =>
        intro a
        have hstep : (Warnings.or a (if c.warn x then flag (fromLeft x) else .none)) &&& flag b ≠ .none ↔ a &&& flag b ≠ .none ∨ (fromLeft x = b ∧ c.warn x = true) := by
          have hdist : ∀ u v : Warnings, (Warnings.or u v) &&& flag b = Warnings.or (u &&& flag b) (v &&& flag b) := by
            intro u v
            unfold Warnings.or
            ext i hi; simp; cases u[i] <;> simp
          rw [hdist, ne_eq, or_eq_none, not_and_or]
          have : ¬ ((if c.warn x then flag (fromLeft x) else .none) &&& flag b = .none) ↔ (fromLeft x = b ∧ c.warn x = true) := by
            cases c.warn x <;> cases fromLeft x <;> cases b <;> decide
          rw [this]
        rw [List.foldl_cons, ih, hstep]
        simp only [List.mem_cons, exists_eq_or_imp, or_assoc]
    rw [hw, key]
    have : ¬ (Warnings.none &&& flag b ≠ Warnings.none) := by cases b <;> decide
    simp only [this, false_or]
    constructor
    · rintro ⟨r, hr, hb, hwr⟩
      have hr := hperm.mem_iff.1 hr
      obtain ⟨f, g, a, b', d⟩ := (f3 r hr).1 hwr
      exact ⟨r, hr, hb, f, g, a, b', by rw [← hct]; exact d⟩
    · rintro ⟨r, hr, hb, f, g, a, b', d⟩
      exact ⟨r, hperm.mem_iff.2 hr, hb, (f3 r hr).2 ⟨f, g, a, b', by rw [hct]; exact d⟩⟩

end Kigumi.Local

namespace Kigumi.Local
open Kigumi TagProg Global Outcome

theorem nbr_bound {nbr : Nat → List Nat} {n : Nat} (h : ∀ f, n ≤ f → nbr f = []) : ∃ D, ∀ f, (nbr f).length ≤ D := by
  have : ∀ m, ∃ D, ∀ f, f < m → (nbr f).length ≤ D := by
    intro m
    induction m with
    | zero => exact ⟨0, by intro f hf; omega⟩
    | succ m ih =>
      obtain ⟨D, hD⟩ := ih
      refine ⟨max D (nbr m).length, ?_⟩
      intro f hf
      by_cases hfm : f = m
      · subst hfm; omega
      · have := hD f (by omega); omega
  obtain ⟨D, hD⟩ := this n
  refine ⟨D, fun f => ?_⟩
  by_cases hf : f < n
  · exact hD f hf
  · rw [h f (by omega)]; simp

theorem meshEnv_out {fs : List (Tri Nat)} {m : Mesh.Mesh} (h : Mesh.Finalized fs m) (border : List (Nat × Nat)) (fromLeft : Nat → Bool) :
    ∀ f, (meshEnv fs m border fromLeft).n ≤ f → (meshEnv fs m border fromLeft).nbr f = [] := by
  intro f hf
  rw [List.eq_nil_iff_forall_not_mem]
  intro g hg
  obtain ⟨t, v, w, ht, -⟩ := (meshEnv_nbr h border fromLeft).1 f g hg
  have hf' : fs.length ≤ f := hf
  rw [List.getElem?_eq_none hf'] at ht; simp at ht

/-- A classified face stays classified. -/
theorem local_stays {E : Env} (hn : ∀ f, ∀ g ∈ E.nbr f, g < E.n) {edges : List (List Nat × Option (List Entry))} {tags0 : Nat → Tag} {c : Cfg} (hex : Exec (start E edges tags0) c) :
    ∀ g, tags0 g ≠ .unknown → c.tags g ≠ .unknown := by
  obtain ⟨K, W, hi⟩ := TagProg.Inv.exec (ok := fun _ _ => True) (Post := fun i K W w => match edges[i]? with | some e => BodyPost E (fun _ _ => True) e.1 e.2 False K W w | none => True) (c0 := start E edges tags0)
    (by intros; trivial) (by
    intro i
    simp only [start]
    cases hei : edges[i]? with
    | none => exact trivial
    | some e =>
      obtain ⟨around, sorted⟩ := e
      exact body_wp hn (by intro _ _ _ _ _; trivial) _ (fun cs hcs => ⟨_, _, edge_any cs, by simp⟩)) hex
  exact hi.stay

/-- The floods of the global classification finish. -/
theorem global_exists {nbr : Nat → List Nat} {n : Nat} (ha : Adj nbr n) (ho : ∀ f, n ≤ f → nbr f = []) {side : Nat → Option Tag}
    (hside : ∀ r t, side r = some t → t = .exterior ∨ t = .interior) (fromLeft : Nat → Bool) {tags0 : Nat → Tag}
    (hall : ∀ r, r < n → tags0 r = .unknown → side r ≠ none) : ∃ tags w, Global.Result nbr n side fromLeft tags0 tags w := by
  obtain ⟨reps, h1, h2, h3, h4, h5⟩ := representatives_spec (tags := tags0) ha
  obtain ⟨D, hD⟩ := nbr_bound ho
  let t : Nat → Tag := fun r => (side r).getD .interior
  have ht : ∀ r ∈ reps, side r = some (t r) := by
    intro r hr
    cases hs : side r with
    | none => exact absurd hs (hall r (h2 r hr).1 (h2 r hr).2)
    | some x => simp [t, hs]
  obtain ⟨k, c, hex, hd⟩ := Flood.completes (P := ⟨nbr, t⟩) (R := reps) (tags0 := tags0) (n := n) (D := D) h3 (by
    intro r hr
    rcases hside r _ (ht r hr) with h | h <;> simp [h]) ha.lt hD .init
  exact ⟨c.tags, _, reps, h1, t, ht, k, c, reps, hex, hd, rfl, List.Perm.refl _, rfl⟩

end Kigumi.Local

namespace Kigumi.Props
open Kigumi Local TagProg Global Outcome

/-- **Nothing stays unclassified.** In every mixed mesh with proper faces, for every border set, starting from tags that only mark coincident faces, after any execution of the
local classification of any list of edges (with any number of threads and any interleaving) and any execution of the global classification that raises no warning, every face is classified. -/
theorem C26_all_classified {fs : List (Tri Nat)} {m : Mesh.Mesh} (hm : Mesh.Finalized fs m) (hp : Spec.Proper fs) (border : List (Nat × Nat)) (fromLeft : Nat → Bool)
    {edges : List (List Nat × Option (List Entry))} {tags0 tags1 tags2 : Nat → Tag} {w1 w2 : Warnings} {side : Nat → Option Tag}
    (h0 : ∀ f, tags0 f = .unknown ∨ tags0 f = .coplanar ∨ tags0 f = .opposite) (hside : ∀ r t, side r = some t → t = .exterior ∨ t = .interior)
    (hl : Local.Result (meshEnv fs m border fromLeft) edges tags0 tags1 w1)
    (hg : Global.Result (meshEnv fs m border fromLeft).nbr fs.length side fromLeft tags1 tags2 w2) (hw : w2 = .none) :
    ∀ f, f < fs.length → tags2 f ≠ .unknown := by
  have ha := meshEnv_adj hm hp border fromLeft
  obtain ⟨reps, t, h1, h2, h3, h4, h5, h6⟩ := global_result ha hside hg
  obtain ⟨c, ws, order, hex, hct, hret, -, -⟩ := hl
  obtain ⟨-, -, W, hsrc, hpost⟩ := local_result (ok := fun _ _ => True) ha.lt (by intro _ _ _ _ _; trivial) (by intros; trivial) (fun _ => False)
    (by intro e _ cs _; exact ⟨_, _, edge_any cs, by simp⟩) hex
  rw [hct] at hsrc hpost
  have hunk : ∀ r ∈ reps, ∀ g, Spec.Reach (R (meshEnv fs m border fromLeft).nbr) tags1 r g → tags1 g = .unknown :=
    fun r hr g hg => reach_unknown hg (h2 r hr).2.1
  have hcl : ∀ r ∈ reps, ∀ f, Spec.Reach (R (meshEnv fs m border fromLeft).nbr) tags1 r f → ∀ g ∈ (meshEnv fs m border fromLeft).nbr f,
      Spec.Reach (R (meshEnv fs m border fromLeft).nbr) tags1 r g := by
    intro r hr f hf g hgf
    refine .step hf hgf ?_
    by_contra hne
    have ht2 : tags2 g = t r := by
      by_contra hd
      have := (h6 (fromLeft r)).2 ⟨r, hr, rfl, f, g, hf, hgf, hd⟩
      rw [hw] at this
      revert this; cases fromLeft r <;> decide
    have h21 : tags2 g = tags1 g := h4 g (fun r' hr' hre => hne (hunk r' hr' g hre))
    have hti := hside r _ (h2 r hr).1
    have hch : tags1 g ≠ tags0 g := by
      rw [← h21, ht2]
      rcases hti with h | h <;> rcases h0 g with h' | h' | h' <;> rw [h, h'] <;> simp
    obtain ⟨i, hi, hWi⟩ := hsrc g hch
    have hfg : f ≠ g := by rintro rfl; exact hne (hunk r hr f hf)
    exact (hpost i _ (hret i hi)).1 g hWi f (ha.symm f g hfg hgf) (hunk r hr f hf)
  intro x hx hux
  have hx1 : tags1 x = .unknown := by
    by_contra hne
    have := h4 x (fun r hr hre => hne (hunk r hr x hre))
    rw [this] at hux; exact hne hux
  obtain ⟨r, hr, hQ⟩ := h5 x hx hx1
  have hreach := hQ (Spec.Reach (R (meshEnv fs m border fromLeft).nbr) tags1 r) .seed (hcl r hr)
  rw [h3 r hr x hreach] at hux
  rcases hside r _ (h2 r hr).1 with h | h <;> rw [h] at hux <;> simp at hux

/-- The global classification finishes unless a representative lies on the boundary of the other operand. -/
theorem C26_global_finishes {fs : List (Tri Nat)} {m : Mesh.Mesh} (hm : Mesh.Finalized fs m) (hp : Spec.Proper fs) (border : List (Nat × Nat)) (fromLeft : Nat → Bool)
    {side : Nat → Option Tag} (hside : ∀ r t, side r = some t → t = .exterior ∨ t = .interior) {tags0 : Nat → Tag} (hall : ∀ r, r < fs.length → tags0 r = .unknown → side r ≠ none) :
    ∃ tags w, Global.Result (meshEnv fs m border fromLeft).nbr fs.length side fromLeft tags0 tags w :=
  global_exists (meshEnv_adj hm hp border fromLeft) (meshEnv_out hm border fromLeft) hside fromLeft hall

theorem demo_finalized : Mesh.Finalized demoFaces (Mesh.finalize (Mesh.ofFaces demoFaces) demoSorted) := by
  refine ⟨demoSorted, by decide +kernel, ?_, rfl⟩
  simp [demoSorted, Mesh.pairLt]

theorem demo_proper : Spec.Proper demoFaces := by unfold Spec.Proper; decide

/-- Without the condition on warnings the claim is false: in a strip of four faces whose second face coincides with the other operand, faces beyond it stay unclassified, because the search for
components crosses classified faces but the floods do not. -/
theorem C26_needs_no_warning : ∃ (tags0 tags w : _), (∀ f, tags0 f = .unknown ∨ tags0 f = .coplanar) ∧
    Global.Result (meshEnv demoFaces (Mesh.finalize (Mesh.ofFaces demoFaces) demoSorted) [] (fun _ => true)).nbr demoFaces.length (fun _ => some .exterior) (fun _ => true) tags0 tags w ∧
    tags 2 = .unknown := by
  have ha := meshEnv_adj demo_finalized demo_proper [] (fun _ => true)
  let tags0 : Nat → Tag := fun i => if i = 1 then .coplanar else .unknown
  obtain ⟨tags, w, h⟩ := C26_global_finishes demo_finalized demo_proper [] (fun _ => true) (side := fun _ => some .exterior) (tags0 := tags0) (by simp) (by simp)
  refine ⟨tags0, tags, w, fun f => by simp only [tags0]; split <;> simp, h, ?_⟩
  obtain ⟨reps, t, h1, h2, h3, h4, h5, h6⟩ := global_result ha (by simp) h
  have e : representatives (meshEnv demoFaces (Mesh.finalize (Mesh.ofFaces demoFaces) demoSorted) [] (fun _ => true)).nbr tags0 demoFaces.length = some [0] := by decide +kernel
  have h1' : reps = [0] := by
    have : some reps = some [0] := h1.symm.trans e
    exact Option.some.inj this
  refine h4 2 ?_
  intro r hr hre
  rw [h1'] at hr
  simp at hr; subst hr
  have n0 : (meshEnv demoFaces (Mesh.finalize (Mesh.ofFaces demoFaces) demoSorted) [] (fun _ => true)).nbr 0 = [0, 1] := by decide +kernel
  have : ∀ g, Spec.Reach (R (meshEnv demoFaces (Mesh.finalize (Mesh.ofFaces demoFaces) demoSorted) [] (fun _ => true)).nbr) tags0 0 g → g = 0 := by
    intro g hg
    induction hg with
    | seed => rfl
    | step _ hn hu ih =>
      subst ih
      simp only [R, n0, List.mem_cons, List.not_mem_nil, or_false] at hn
      rcases hn with rfl | rfl
      · rfl
      · simp [tags0] at hu
  exact absurd (this 2 hre) (by decide)

/-- Consistent input for the classification: around every classified edge the faces bound two regions, `T` is the right tag of every face around an edge, and `T` does not change across an edge
that is not a border edge. -/
structure ConsistentInput (fs : List (Tri Nat)) (border : List (Nat × Nat)) (fromLeft : Nat → Bool) (edges : List (List Nat × Option (List Entry))) (T : Nat → Tag) : Prop where
  edge : ∀ e ∈ edges, ∀ cs, e.2 = some cs → ∃ inside, Consistent fromLeft T cs inside
  const : ∀ f g, Spec.SharesNonBorder fs border f g → T f = T g
  known : ∀ f, T f ≠ .unknown

theorem spread_right {fs : List (Tri Nat)} {m : Mesh.Mesh} (hm : Mesh.Finalized fs m) {border : List (Nat × Nat)} {fromLeft : Nat → Bool}
    {edges : List (List Nat × Option (List Entry))} {T : Nat → Tag} (hc : ConsistentInput fs border fromLeft edges T) :
    Spread (meshEnv fs m border fromLeft) (fun f t => t = T f) := by
  intro f g t hg ht
  rw [ht, hc.const f g ((meshEnv_nbr hm border fromLeft).1 f g hg)]

/-- **Local classification tells the truth.** For consistent input, at every moment of every execution (any interleaving of the calls for different edges), every face is either
unclassified or has its right tag; no call fails to terminate. -/
theorem C28_right_tags {fs : List (Tri Nat)} {m : Mesh.Mesh} (hm : Mesh.Finalized fs m) {border : List (Nat × Nat)} {fromLeft : Nat → Bool}
    {edges : List (List Nat × Option (List Entry))} {T : Nat → Tag} (hc : ConsistentInput fs border fromLeft edges T) {tags0 : Nat → Tag}
    (h0 : ∀ f, tags0 f ≠ .unknown → tags0 f = T f) {c : Cfg} (hex : Exec (start (meshEnv fs m border fromLeft) edges tags0) c) :
    (∀ f, c.tags f = .unknown ∨ c.tags f = T f) ∧ ∀ i, c.prog i ≠ .diverge := by
  obtain ⟨h1, h2, -⟩ := local_result (ok := fun f t => t = T f) (meshEnv_lt hm border fromLeft) (spread_right hm hc) h0 (fun _ => False)
    (by intro e he cs hcs; obtain ⟨inside, hi⟩ := hc.edge e he cs hcs; exact ⟨_, _, edge_right hi, by simp⟩) hex
  refine ⟨fun f => ?_, h2⟩
  by_cases h : c.tags f = .unknown
  · exact Or.inl h
  · exact Or.inr (h1 f h)

/-- Moreover, when the call for an edge with a pair of consecutive, non-coincident faces of the same orientation has returned, all faces around that edge have their right tags, and no call
returns a warning. -/
theorem C28_all_faces_around_edge {fs : List (Tri Nat)} {m : Mesh.Mesh} (hm : Mesh.Finalized fs m) {border : List (Nat × Nat)} {fromLeft : Nat → Bool}
    {edges : List (List Nat × Option (List Entry))} {T : Nat → Tag} (hc : ConsistentInput fs border fromLeft edges T) {tags0 : Nat → Tag}
    (h0 : ∀ f, tags0 f ≠ .unknown → tags0 f = T f) {c : Cfg} (hex : Exec (start (meshEnv fs m border fromLeft) edges tags0) c) {i : Nat} {w : Warnings}
    {around : List Nat} {cs : List Entry} (hi : edges[i]? = some (around, some cs)) (har : ∀ x ∈ around, x ∈ cs.map (·.fi)) (hr : c.prog i = .ret w) :
    w = .none ∧ (HasPair cs → ∀ x ∈ around, c.tags x = T x) := by
  obtain ⟨h1, -, W, -, h3⟩ := local_result (ok := fun f t => t = T f) (meshEnv_lt hm border fromLeft) (spread_right hm hc) h0
    (fun e => ∃ cs, e.2 = some cs ∧ HasPair cs ∧ ∀ x ∈ e.1, x ∈ cs.map (·.fi))
    (by
      intro e he cs hcs
      obtain ⟨inside, hi⟩ := hc.edge e he cs hcs
      refine ⟨_, _, edge_right hi, ?_⟩
      rintro ⟨cs', hcs', hp, ha⟩
      rw [hcs] at hcs'; cases hcs'
      exact ⟨edge_exact hi hc.known hp, ha⟩) hex
  obtain ⟨-, h4, h5⟩ := h3 i w hr
  refine ⟨h4 (by intro f t t' h h'; rw [h, h']), ?_⟩
  intro hp x hx
  exact h1 x (h5 _ hi ⟨cs, rfl, hp, har⟩ x hx)

/-- The tags after both classifications, if the inside/outside test tells the truth about the faces that the local classification leaves. -/
theorem classified_right {fs : List (Tri Nat)} {m : Mesh.Mesh} (hm : Mesh.Finalized fs m) (hp : Spec.Proper fs) {border : List (Nat × Nat)} {fromLeft : Nat → Bool}
    {edges : List (List Nat × Option (List Entry))} {T : Nat → Tag} (hc : ConsistentInput fs border fromLeft edges T) {tags0 tags1 tags2 : Nat → Tag} {w1 w2 : Warnings}
    {side : Nat → Option Tag} (h0 : ∀ f, tags0 f ≠ .unknown → tags0 f = T f) (h0' : ∀ f, tags0 f = .unknown ∨ tags0 f = .coplanar ∨ tags0 f = .opposite)
    (hside : ∀ r t, side r = some t → t = .exterior ∨ t = .interior)
    (hl : Local.Result (meshEnv fs m border fromLeft) edges tags0 tags1 w1)
    (hg : Global.Result (meshEnv fs m border fromLeft).nbr fs.length side fromLeft tags1 tags2 w2) (hT : ∀ r t, tags1 r = .unknown → side r = some t → t = T r) :
    (∀ f, f < fs.length → tags2 f = T f) ∧ w1 = .none ∧ w2 = .none := by
  have ha := meshEnv_adj hm hp border fromLeft
  have hsp := spread_right hm hc
  have huniq : Unique (fun f t => t = T f) := by intro f t t' h h'; rw [h, h']
  have hlr := hl
  obtain ⟨c, ws, order, hex, hct, hret, hperm, hw1⟩ := hl
  obtain ⟨h1, -, W, -, h3⟩ := local_result (ok := fun f t => t = T f) ha.lt hsp h0 (fun _ => False)
    (by intro e he cs hcs; obtain ⟨inside, hi⟩ := hc.edge e he cs hcs; exact ⟨_, _, edge_right hi, by simp⟩) hex
  have hw1' : w1 = .none := by
    rw [hw1, fold_or_none]
    refine ⟨rfl, ?_⟩
    intro i hi
    have hi := hperm.mem_iff.1 hi
    exact (h3 i _ (hret i (by simpa using hi))).2.1 huniq
  have ht1 : ∀ f, tags1 f ≠ .unknown → tags1 f = T f := by intro f hf; rw [← hct] at hf ⊢; exact h1 f hf
  obtain ⟨reps, t, g1, g2, g3, g4, g5, g6⟩ := global_result ha hside hg
  have hreachT : ∀ r g, Spec.Reach (R (meshEnv fs m border fromLeft).nbr) tags1 r g → T g = T r := by
    intro r g hr
    induction hr with
    | seed => rfl
    | step _ hn _ ih => rw [← ih]; exact (hc.const _ _ ((meshEnv_nbr hm border fromLeft).1 _ _ hn)).symm
  have htr : ∀ r ∈ reps, t r = T r := fun r hr => hT r _ (g2 r hr).2.1 (g2 r hr).1
  have ht2 : ∀ g, tags2 g ≠ .unknown → tags2 g = T g := by
    intro g hg
    by_cases hex : ∃ r ∈ reps, Spec.Reach (R (meshEnv fs m border fromLeft).nbr) tags1 r g
    · obtain ⟨r, hr, hre⟩ := hex
      rw [g3 r hr g hre, htr r hr, hreachT r g hre]
    · push Not at hex
      rw [g4 g hex] at hg ⊢
      exact ht1 g hg
  have hw2 : w2 = .none := by
    have hbit : ∀ b, w2 &&& flag b = .none := by
      intro b
      by_contra hne
      obtain ⟨r, hr, -, f, g, hf, hfg, hd⟩ := (g6 b).1 hne
      have hTg : T g = T r := by
        rw [← hreachT r f hf]
        exact (hc.const _ _ ((meshEnv_nbr hm border fromLeft).1 _ _ hfg)).symm
      by_cases hu : tags2 g = .unknown
      · have hu1 : tags1 g = .unknown := by
          by_contra hne1
          have : tags2 g = tags1 g := g4 g (fun r' hr' hre => hne1 (reach_unknown hre (g2 r' hr').2.1))
          rw [this] at hu; exact hne1 hu
        have := g3 r hr g (.step hf hfg hu1)
        rw [hu] at this
        exact hc.known r (by rw [← htr r hr, ← this])
      · exact hd (by rw [ht2 g hu, hTg, htr r hr])
    -- the accumulated warnings only ever contain the two flags
    obtain ⟨reps', hr', t', ht', k, c', order', hex', hd', hct', hperm', hw'⟩ := hg
    have honly : ∀ (l : List Nat) (a : Warnings), (a = .none ∨ a &&& flag true ≠ .none ∨ a &&& flag false ≠ .none) →
        let r := l.foldl (fun w r => Warnings.or w (if c'.warn r then flag (fromLeft r) else .none)) a
        (r = .none ∨ r &&& flag true ≠ .none ∨ r &&& flag false ≠ .none) := by
      intro l
      induction l with
      | nil => intro a h; exact h
      | cons x l ih =>
        intro a h
        refine ih _ ?_
        have hdist : ∀ u v x : Warnings, (Warnings.or u v) &&& x = .none → u &&& x = .none ∧ v &&& x = .none := by
          intro u v x he
          have : (Warnings.or u v) &&& x = Warnings.or (u &&& x) (v &&& x) := by
            unfold Warnings.or
            ext i hi; simp; cases u[i] <;> simp
          rw [this] at he
          exact or_eq_none.1 he
        by_cases hwx : c'.warn x = true
        · right
          simp only [hwx, if_true]
          cases hfl : fromLeft x with
          | true => left; intro he; exact absurd (hdist _ _ _ he).2 (by decide)
          | false => right; intro he; exact absurd (hdist _ _ _ he).2 (by decide)
        · simp only [hwx]
          have : Warnings.or a Warnings.none = a := by unfold Warnings.or Warnings.none; simp
          rw [show (if false = true then flag (fromLeft x) else Warnings.none) = Warnings.none from rfl, this]
          exact h
    rcases honly order' .none (Or.inl rfl) with h | h | h
    · rw [hw']; exact h
    · exact absurd (by rw [← hw']; exact hbit true) h
    · exact absurd (by rw [← hw']; exact hbit false) h
  exact ⟨fun f hf => ht2 f (C26_all_classified hm hp border fromLeft h0' hside hlr hg hw2 f hf), hw1', hw2⟩

/-- **The result does not depend on the processing order.** For consistent input and an inside/outside test that tells the truth, every completed execution of local and global classification – for
any order and interleaving of edges and components – gives every face its right tag and raises no warning. -/
theorem C27_order_independent {fs : List (Tri Nat)} {m : Mesh.Mesh} (hm : Mesh.Finalized fs m) (hp : Spec.Proper fs) {border : List (Nat × Nat)} {fromLeft : Nat → Bool}
    {edges : List (List Nat × Option (List Entry))} {T : Nat → Tag} (hc : ConsistentInput fs border fromLeft edges T) {tags0 tags1 tags2 : Nat → Tag} {w1 w2 : Warnings}
    {side : Nat → Option Tag} (h0 : ∀ f, tags0 f ≠ .unknown → tags0 f = T f) (h0' : ∀ f, tags0 f = .unknown ∨ tags0 f = .coplanar ∨ tags0 f = .opposite)
    (hside : ∀ r t, side r = some t → (t = .exterior ∨ t = .interior) ∧ t = T r)
    (hl : Local.Result (meshEnv fs m border fromLeft) edges tags0 tags1 w1)
    (hg : Global.Result (meshEnv fs m border fromLeft).nbr fs.length side fromLeft tags1 tags2 w2) :
    (∀ f, f < fs.length → tags2 f = T f) ∧ w1 = .none ∧ w2 = .none :=
  classified_right hm hp hc h0 h0' (fun r t h => (hside r t h).1) hl hg fun r t _ h => (hside r t h).2

end Kigumi.Props

namespace Kigumi.Props
open Kigumi Local TagProg Global Outcome

/-- Four faces around the edge 0-1: two of each operand, crossing each other. -/
def crossFaces : List (Tri Nat) := [⟨0, 1, 2⟩, ⟨0, 1, 3⟩, ⟨1, 0, 4⟩, ⟨1, 0, 5⟩]
def crossSorted : List (Nat × Nat) := [(0, 0), (0, 1), (0, 2), (0, 3), (1, 0), (1, 1), (1, 2), (1, 3), (2, 0), (3, 1), (4, 2), (5, 3)]
def crossMesh : Mesh.Mesh := Mesh.finalize (Mesh.ofFaces crossFaces) crossSorted
def crossLeft (i : Nat) : Bool := decide (i = 0 ∨ i = 2)
def crossEntries : List Entry := [⟨0, 2, true⟩, ⟨1, 3, true⟩, ⟨2, 4, false⟩, ⟨3, 5, false⟩]
def crossTags (i : Nat) : Tag := if i = 0 ∨ i = 3 then .interior else .exterior
def crossInside (left : Bool) (gap : Nat) : Bool := if left then decide (gap = 0 ∨ gap = 3 ∨ gap = 4) else decide (gap = 0 ∨ gap = 1 ∨ gap = 4)

example : Mesh.Finalized crossFaces crossMesh ∧ Spec.Proper crossFaces ∧ HasPair crossEntries ∧
    (crossFaces.mapIdx (fun i f => mkEntry 0 1 i f)) = crossEntries.map ok := by
  refine ⟨⟨crossSorted, by decide +kernel, by simp [crossSorted, Mesh.pairLt], rfl⟩, by unfold Spec.Proper; decide, ⟨0, by decide, ?_, ?_, by decide⟩, by decide⟩
  · rintro ⟨i, j, hi, hj, hij, hr, hf⟩
    revert hi hj hij hr hf
    simp only [crossEntries, List.length_cons, List.length_nil]
    intro hi hj
    interval_cases i <;> interval_cases j <;> simp [nth]
  · rintro ⟨i, j, hi, hj, hij, hr, hf⟩
    revert hi hj hij hr hf
    simp only [crossEntries, List.length_cons, List.length_nil]
    intro hi hj
    interval_cases i <;> interval_cases j <;> simp [nth]

example : ConsistentInput crossFaces [(0, 1)] crossLeft [([0, 1, 2, 3], some crossEntries)] crossTags := by
  refine ⟨?_, ?_, by intro f; unfold crossTags; split <;> simp⟩
  · intro e he cs hcs
    simp at he; subst he; cases hcs
    refine ⟨crossInside, ⟨?_, ?_⟩, ?_, ?_⟩
    · decide
    · decide
    · intro i j hi hj hij hr
      revert hi hj hij hr
      simp only [crossEntries, List.length_cons, List.length_nil]
      intro hi hj
      interval_cases i <;> interval_cases j <;> simp [nth]
    · intro i hi
      simp only [crossEntries, List.length_cons, List.length_nil] at hi
      interval_cases i <;> simp [crossTags, crossEntries, nth, rightTag, Spec.RightTag, crossInside, crossLeft] <;> intro j hj hji <;> interval_cases j <;> simp at *
  · intro f g h
    have : ∀ f g, Spec.SharesNonBorder crossFaces [(0, 1)] f g → f = g := by
      rintro f g ⟨t, v, w, ht, hs, hb, ⟨t1, ht1, hv⟩, ⟨t2, ht2, hw⟩⟩
      rw [ht1] at ht2; cases ht2
      have hf : f < 4 := by by_contra hc; rw [List.getElem?_eq_none (by simp [crossFaces]; omega)] at ht; simp at ht
      have hg : g < 4 := by by_contra hc; rw [List.getElem?_eq_none (by simp [crossFaces]; omega)] at ht1; simp at ht1
      interval_cases f <;> interval_cases g <;> simp [crossFaces] at ht ht1 ⊢ <;> subst ht ht1 <;>
        rcases hs with ⟨rfl, rfl⟩ | ⟨rfl, rfl⟩ | ⟨rfl, rfl⟩ <;> simp [Spec.IsBorder] at hb hv hw
    rw [this f g h]

end Kigumi.Props

import Verif.Props.Classify

/-! # C30, C61, C67 -/
namespace Kigumi.Local
open Kigumi TagProg Global Outcome
open Kigumi.Flood (set_same set_other)

/-- What the first pass writes. -/
theorem step1_run {cs : List Entry} (h2 : 2 ≤ cs.length) : ∀ (is : List Nat), (∀ i ∈ is, i < cs.length) → ∀ tags : Nat → Tag,
    ∃ tags', (step1 cs is (.ret .none)).run tags = some (tags', .none) ∧
      ∀ x, tags' x ≠ tags x → ∃ i j, i < cs.length ∧ j < cs.length ∧ i ≠ j ∧ (nth cs i).fi = x ∧ (nth cs i).r = (nth cs j).r ∧
        tags' x = (if (nth cs i).ccw = (nth cs j).ccw then .coplanar else .opposite)
  | [], _, tags => ⟨tags, rfl, by simp⟩
  | i :: is, hi, tags => by
    have hic := hi i (by simp)
    have hj : (i + 1) % cs.length < cs.length := Nat.mod_lt _ (by omega)
    have hne : (i + 1) % cs.length ≠ i := by
      intro he
      by_cases hl : i + 1 = cs.length
      · rw [hl, Nat.mod_self] at he; omega
      · rw [Nat.mod_eq_of_lt (by omega)] at he; omega
    unfold step1
    by_cases hr : (nth cs i).r = (nth cs ((i + 1) % cs.length)).r
    · simp only [hr, if_true, Prog.run]
      generalize ht : (if (nth cs i).ccw = (nth cs ((i + 1) % cs.length)).ccw then Tag.coplanar else Tag.opposite) = t
      obtain ⟨tags', h1, h3⟩ := step1_run h2 is (fun x hx => hi x (by simp [hx])) (Flood.set (Flood.set tags (nth cs i).fi t) (nth cs ((i + 1) % cs.length)).fi t)
      refine ⟨tags', h1, ?_⟩
      intro x hx
      by_cases hch : tags' x = Flood.set (Flood.set tags (nth cs i).fi t) (nth cs ((i + 1) % cs.length)).fi t x
      · by_cases hxg : x = (nth cs ((i + 1) % cs.length)).fi
        · refine ⟨_, i, hj, hic, hne, hxg.symm, hr.symm, ?_⟩
          rw [hch, hxg, set_same, ← ht]
          by_cases hc : (nth cs i).ccw = (nth cs ((i + 1) % cs.length)).ccw
          · simp [hc]
          · simp [hc, Ne.symm hc]
        · rw [set_other _ _ hxg] at hch
          by_cases hxf : x = (nth cs i).fi
          · refine ⟨i, _, hic, hj, Ne.symm hne, hxf.symm, hr, ?_⟩
            rw [hch, hxf, set_same, ← ht]
          · rw [set_other _ _ hxf] at hch; exact absurd hch hx
      · exact h3 x hch
    · simp only [hr, if_false]
      exact step1_run h2 is (fun x hx => hi x (by simp [hx])) tags

end Kigumi.Local

namespace Kigumi.Props
open Kigumi Local TagProg Global Outcome

/-- The entries of two faces around an edge `pq`: if they have the same third vertex, the faces have the same three vertices; in the same cyclic order iff the orientations
agree, in the opposite order otherwise. -/
theorem C30_entries {p q : Nat} {fi gi : Nat} {f g : Tri Nat} {ef eg : Entry} (hpq : p ≠ q) (pf : f.a ≠ f.b ∧ f.b ≠ f.c ∧ f.a ≠ f.c) (pg : g.a ≠ g.b ∧ g.b ≠ g.c ∧ g.a ≠ g.c)
    (hf : mkEntry p q fi f = ok ef) (hg : mkEntry p q gi g = ok eg) (hr : ef.r = eg.r) :
    (ef.ccw = eg.ccw → Spec.SameFace f g) ∧ (ef.ccw ≠ eg.ccw → Spec.SameFace f.flip g) := by
  obtain ⟨fa, fb, fc⟩ := f
  obtain ⟨ga, gb, gc⟩ := g
  have shape : ∀ {fi : Nat} {a b c : Nat} {e : Entry}, a ≠ b ∧ b ≠ c ∧ a ≠ c → mkEntry p q fi ⟨a, b, c⟩ = ok e →
      (e.ccw = true ∧ ((p = a ∧ q = b ∧ e.r = c) ∨ (p = b ∧ q = c ∧ e.r = a) ∨ (p = c ∧ q = a ∧ e.r = b))) ∨
      (e.ccw = false ∧ ((q = a ∧ p = b ∧ e.r = c) ∨ (q = b ∧ p = c ∧ e.r = a) ∨ (q = c ∧ p = a ∧ e.r = b))) := by
    intro fi a b c e hd h
    simp only [mkEntry, findCorner] at h
    by_cases h1 : a = p <;> by_cases h2 : b = p <;> by_cases h3 : c = p <;> by_cases h4 : a = q <;> by_cases h5 : b = q <;> by_cases h6 : c = q <;>
      simp [h1, h2, h3, h4, h5, h6, cornerAt, hpq, Ne.symm hpq] at h hd ⊢ <;> first | omega | (subst h; simp <;> omega)
  have sf := shape pf hf
  have sg := shape pg hg
  simp only [Spec.SameFace, Tri.rot, Tri.flip, Tri.mk.injEq]
  constructor
  · intro hc
    rcases sf with ⟨c1, sf⟩ | ⟨c1, sf⟩ <;> rcases sg with ⟨c2, sg⟩ | ⟨c2, sg⟩ <;> simp [c1, c2] at hc <;>
      rcases sf with ⟨s1, s2, s3⟩ | ⟨s1, s2, s3⟩ | ⟨s1, s2, s3⟩ <;> rcases sg with ⟨t1, t2, t3⟩ | ⟨t1, t2, t3⟩ | ⟨t1, t2, t3⟩ <;>
      (rw [s3, t3] at hr; dsimp only at s1 s2 t1 t2 hr; omega)
  · intro hc
    rcases sf with ⟨c1, sf⟩ | ⟨c1, sf⟩ <;> rcases sg with ⟨c2, sg⟩ | ⟨c2, sg⟩ <;> simp [c1, c2] at hc <;>
      rcases sf with ⟨s1, s2, s3⟩ | ⟨s1, s2, s3⟩ | ⟨s1, s2, s3⟩ <;> rcases sg with ⟨t1, t2, t3⟩ | ⟨t1, t2, t3⟩ | ⟨t1, t2, t3⟩ <;>
      (rw [s3, t3] at hr; dsimp only at s1 s2 t1 t2 hr; omega)

/-- **Coincidence tags are truthful** when at least two faces surround the edge: the pass that tags coincident faces changes the tag of a face only to COPLANAR, when another face around the edge has the
same three vertices in the same cyclic order, or to OPPOSITE, when another one has them in the opposite order. Missing from the full claim: edges with a single face. -/
theorem C30_coincidence_tags_partial {p q : Nat} (hpq : p ≠ q) {fs : List (Tri Nat)} (hp : Spec.Proper fs) {cs : List Entry} (h2 : 2 ≤ cs.length)
    (hcs : ∀ e ∈ cs, ∃ f, fs[e.fi]? = some f ∧ mkEntry p q e.fi f = ok e) (hdist : (cs.map (·.fi)).Nodup) (tags : Nat → Tag) :
    ∃ tags', (step1 cs (List.range cs.length) (.ret .none)).run tags = some (tags', .none) ∧
      ∀ x, tags' x ≠ tags x → ∃ y f g, y ≠ x ∧ y ∈ cs.map (·.fi) ∧ fs[x]? = some f ∧ fs[y]? = some g ∧
        ((tags' x = .coplanar ∧ Spec.SameFace f g) ∨ (tags' x = .opposite ∧ Spec.SameFace f.flip g)) := by
  obtain ⟨tags', h1, h3⟩ := step1_run h2 (List.range cs.length) (by simp) tags
  refine ⟨tags', h1, ?_⟩
  intro x hx
  obtain ⟨i, j, hi, hj, hij, rfl, hr, ht⟩ := h3 x hx
  obtain ⟨f, hf, ef⟩ := hcs _ (nth_mem hi)
  obtain ⟨g, hg, eg⟩ := hcs _ (nth_mem hj)
  have key := C30_entries hpq (hp f (List.mem_of_getElem? hf)) (hp g (List.mem_of_getElem? hg)) ef eg hr
  refine ⟨(nth cs j).fi, f, g, ?_, nth_fi_mem hj, hf, hg, ?_⟩
  · intro he
    have e : ∀ {k : Nat} (hk : k < cs.length), (cs.map (·.fi))[k]? = some (nth cs k).fi := by
      intro k hk
      unfold nth
      rw [List.getElem?_map, List.getD_eq_getElem?_getD, List.getElem?_eq_getElem hk]; rfl
    have h4 := e hi
    have h5 := e hj
    rw [he] at h5
    exact hij ((List.getElem?_inj (by simpa using hi) hdist).1 (h4.trans h5.symm))
  · by_cases hc : (nth cs i).ccw = (nth cs j).ccw
    · left; rw [ht]; simp only [hc, if_true, true_and]; exact key.1 hc
    · right; rw [ht]; simp only [hc, if_false, true_and]; exact key.2 hc

/-- The full claim is false: a face that is alone around its edge is compared with itself and tagged COPLANAR. -/
theorem C30_single_face_false : ((step1 [⟨0, 2, true⟩] (List.range 1) (.ret .none)).run (fun _ => .unknown)).map (fun r => r.1 0) = some .coplanar ∧
    mkEntry 0 1 0 ⟨0, 1, 2⟩ = ok ⟨0, 2, true⟩ := by decide

example : ((step1 [⟨0, 2, true⟩, ⟨1, 2, false⟩, ⟨2, 3, true⟩] (List.range 3) (.ret .none)).run (fun _ => .unknown)).map (fun r => [r.1 0, r.1 1, r.1 2]) =
    some [.opposite, .opposite, .unknown] := by decide

/-- **No warning is lost or invented when warnings are combined**, in whatever order threads deliver them: the flag of an operand is set at the end iff it is set in some part. -/
theorem C61_merge (ws : Nat → Warnings) (order : List Nat) (b : Bool) :
    (order.foldl (fun w i => Warnings.or w (ws i)) .none) &&& flag b ≠ .none ↔ ∃ i ∈ order, ws i &&& flag b ≠ .none := by
  have key : ∀ (l : List Nat) (a : Warnings), (l.foldl (fun w i => Warnings.or w (ws i)) a) &&& flag b ≠ .none ↔ a &&& flag b ≠ .none ∨ ∃ i ∈ l, ws i &&& flag b ≠ .none := by
    intro l
    induction l with
    | nil => intro a; simp
    | cons x l ih =>
      intro a
      have hdist : ∀ u v : Warnings, (Warnings.or u v) &&& flag b = Warnings.or (u &&& flag b) (v &&& flag b) := by
        intro u v
        unfold Warnings.or
        ext i hi; simp; cases u[i] <;> simp
      rw [List.foldl_cons, ih, hdist, ne_eq, or_eq_none, not_and_or]
      simp only [List.mem_cons, exists_eq_or_imp, or_assoc, ne_eq]
  rw [key]
  have : ¬ (Warnings.none &&& flag b ≠ Warnings.none) := by cases b <;> decide
  simp only [this, false_or]

/-- **The warning identifies the right operand** (global classification): the flag of an operand (`b = true`: the first one) is returned iff some representative of that operand reaches a face that is next to
a face with, in the end, a different tag. Floods of the local classification: C25. -/
theorem C61_global {fs : List (Tri Nat)} {m : Mesh.Mesh} (hm : Mesh.Finalized fs m) (hp : Spec.Proper fs) (border : List (Nat × Nat)) (fromLeft : Nat → Bool)
    {tags0 tags : Nat → Tag} {w : Warnings} {side : Nat → Option Tag} (hside : ∀ r t, side r = some t → t = .exterior ∨ t = .interior)
    (hg : Global.Result (meshEnv fs m border fromLeft).nbr fs.length side fromLeft tags0 tags w) (b : Bool) :
    w &&& (if b then Warnings.first else Warnings.second) ≠ .none ↔
      ∃ r f g, tags0 r = .unknown ∧ fromLeft r = b ∧ (∃ reps, representatives (meshEnv fs m border fromLeft).nbr tags0 fs.length = some reps ∧ r ∈ reps) ∧
        Spec.Reach (Spec.SharesNonBorder fs border) tags0 r f ∧ Spec.SharesNonBorder fs border f g ∧ tags g ≠ tags r := by
  obtain ⟨reps, t, h1, h2, h3, h4, h5, h6⟩ := global_result (meshEnv_adj hm hp border fromLeft) hside hg
  obtain ⟨n1, n2⟩ := meshEnv_nbr hm border fromLeft
  have hb := h6 b
  unfold flag at hb
  rw [hb]
  constructor
  · rintro ⟨r, hr, hl, f, g, hf, hg, hd⟩
    refine ⟨r, f, g, (h2 r hr).2.1, hl, ⟨reps, h1, hr⟩, (reach_iff hm border fromLeft).1 hf, n1 f g hg, ?_⟩
    rw [h3 r hr r .seed]; exact hd
  · rintro ⟨r, f, g, hu, hl, ⟨reps', h1', hr⟩, hf, hg, hd⟩
    have : reps' = reps := by
      have := h1'.symm.trans h1
      exact Option.some.inj this
    subst this
    have hfr := (reach_iff hm border fromLeft).2 hf
    refine ⟨r, hr, hl, f, g, hfr, n2 f g ?_ hg, ?_⟩
    · rintro rfl
      rw [h3 r hr f hfr, h3 r hr r .seed] at hd; exact hd rfl
    · rw [h3 r hr r .seed] at hd; exact hd

example : Warnings.or (Warnings.or .none Warnings.second) Warnings.first &&& flag true ≠ .none ∧ flag true ≠ flag false := by decide

/-- **The floods of the global classification do not race**: at no moment of any execution is one activity about to write the tag of a face that another activity is about to read or write. -/
theorem C67_global_no_race {fs : List (Tri Nat)} {m : Mesh.Mesh} (hm : Mesh.Finalized fs m) (hp : Spec.Proper fs) (border : List (Nat × Nat)) (fromLeft : Nat → Bool)
    {tags0 t : Nat → Tag} {reps : List Nat} (hr : representatives (meshEnv fs m border fromLeft).nbr tags0 fs.length = some reps)
    (ht : ∀ r ∈ reps, t r = .exterior ∨ t r = .interior) {k : Nat} {c : Flood.Cfg} (h : Flood.Exec ⟨(meshEnv fs m border fromLeft).nbr, t⟩ reps tags0 k c) {r r' g : Nat}
    (h1 : r ∈ reps) (h2 : r' ∈ reps) (hne : r ≠ r') : ¬ (Flood.Writes r c g ∧ Flood.Accesses ⟨(meshEnv fs m border fromLeft).nbr, t⟩ r' c g) := by
  rintro ⟨hw, ha⟩
  obtain ⟨reps', a1, a2, a3, a4, a5⟩ := representatives_spec (tags := tags0) (meshEnv_adj hm hp border fromLeft)
  have : reps' = reps := by
    have := a1.symm.trans hr
    exact Option.some.inj this
  subst this
  exact Flood.no_race ⟨fun r hr => by rcases ht r hr with h | h <;> simp [h], fun r hr => Or.inl (a2 r hr).2, a4⟩ (fun r hr => (a2 r hr).2) h h1 h2 hne hw ha

/-- Two intersection edges 0-1 and 1-2 of the same face 0, each crossed by faces of the other operand. -/
def raceEdges : List (List Nat × Option (List Entry)) :=
  [([0, 1, 2], some [⟨0, 2, true⟩, ⟨1, 3, true⟩, ⟨2, 4, false⟩]), ([0, 3, 4], some [⟨0, 0, true⟩, ⟨3, 5, true⟩, ⟨4, 6, false⟩])]

/-- **The local classification does race**: the stated property is false. Two edges of one face, classified by two threads: while one thread is about to write the tag of face 0, the other is about to
read it (the accesses are not synchronised: `m.data(fi).tag` is a plain member). -/
theorem C67_local_race (E : Env) : ∃ c, Exec (start E raceEdges (fun _ => .unknown)) c ∧ Race c := by
  have h0 : (start E raceEdges (fun _ => .unknown)).prog 0 = body E [0, 1, 2] (some [⟨0, 2, true⟩, ⟨1, 3, true⟩, ⟨2, 4, false⟩]) := rfl
  have h1 : (start E raceEdges (fun _ => .unknown)).prog 1 = body E [0, 3, 4] (some [⟨0, 0, true⟩, ⟨3, 5, true⟩, ⟨4, 6, false⟩]) := rfl
  -- the first thread finds an unclassified face, then reads the tags of faces 0 and 1 twice each
  have s : ∀ {c : Cfg} {f : Nat} {k : Tag → Prog}, Exec (start E raceEdges (fun _ => .unknown)) c ∧ c.tags = (fun _ => .unknown) ∧ c.prog 0 = .read f k ∧ c.prog 1 = (start E raceEdges (fun _ => .unknown)).prog 1 →
      ∃ c', Exec (start E raceEdges (fun _ => .unknown)) c' ∧ c'.tags = (fun _ => .unknown) ∧ c'.prog 0 = k .unknown ∧ c'.prog 1 = (start E raceEdges (fun _ => .unknown)).prog 1 := by
    rintro c f k ⟨a, b, d, e⟩
    refine ⟨_, a.step (.read d), b, ?_, ?_⟩
    · simp [Flood.set, b]
    · simp [Flood.set, e]
  obtain ⟨c1, a1, b1, d1, e1⟩ := s (f := 0) ⟨.init, rfl, h0, rfl⟩
  obtain ⟨c2, a2, b2, d2, e2⟩ := s (f := 0) ⟨a1, b1, d1, e1⟩
  obtain ⟨c3, a3, b3, d3, e3⟩ := s (f := 0) ⟨a2, b2, d2, e2⟩
  obtain ⟨c4, a4, b4, d4, e4⟩ := s (f := 1) ⟨a3, b3, d3, e3⟩
  obtain ⟨c5, a5, b5, d5, e5⟩ := s (f := 1) ⟨a4, b4, d4, e4⟩
  refine ⟨c5, a5, 0, 1, 0, false, by decide, ?_, ?_⟩
  · rw [d5]; rfl
  · rw [e5, h1]; rfl

end Kigumi.Props

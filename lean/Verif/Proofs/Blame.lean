import Verif.Proofs.Constructed

/-! # Operands with self-intersections -/
namespace Kigumi.Corefine
open Kigumi Outcome Geo Spec.Triangles Spec.Side
open Kigumi.Spec (SameTri HasCorners FaceCorners Follows IsEdgeOf)
open Kigumi.Side (Ok ok_of_proper)
open Kigumi.Cutting (Q Next)
variable {op : Bool → List (Tri P3)} {D : Type} {s : Bool → Soup P3 D} {pts : List P3} {infos : List Info} {E : Env} {crosses : Cdt → Vh → Vh → Bool}

/-! ## What inserting keeps -/

theorem insert_keeps {c c' : Cdt} {id : Nat} {sym : Region.Code} {v : Vh} (h : c.insert id sym = ok (c', v)) : SameFace c c' ∧ c'.constraints = c.constraints := by
  have hin : ok (c.insertInner id) = ok (c', v) → SameFace c c' ∧ c'.constraints = c.constraints := by
    intro e
    obtain ⟨-, h1, h2⟩ := insertInner_spec c id
    have e' : (c.insertInner id).1 = c' := by injection e with e; rw [e]
    rw [e'] at h1 h2
    exact ⟨h1, h2⟩
  have hself : ∀ {w : Vh}, ok (c, w) = ok (c', v) → SameFace c c' ∧ c'.constraints = c.constraints := by
    intro w e; cases e; exact ⟨.refl _, rfl⟩
  unfold Cdt.insert at h
  dsimp only at h
  split at h
  · exact hself h
  split at h
  · exact hself h
  split at h
  · exact hself h
  split at h
  · exact hin h
  split at h
  · exact hin h
  split at h
  · exact hin h
  split at h
  · exact hin h
  · cases h

theorem bind_ok {α β : Type} {x : Outcome α} {f : α → Outcome β} {b : β} (h : x.bind f = ok b) : ∃ a, x = ok a ∧ f a = ok b := by
  cases x with
  | ok a => exact ⟨a, rfl, h⟩
  | exn => cases h
  | ub => cases h

section keep
variable {I : Cdt → Prop} (h1 : ∀ {c c' : Cdt} {id : Nat} {sym : Region.Code} {v : Vh}, I c → c.insert id sym = ok (c', v) → I c')
  (h2 : ∀ {c c' : Cdt} {i j : Vh}, I c → c.insertConstraint crosses i j = ok c' → I c')
include h1 h2

theorem keep_loop (y : Info) : ∀ (n i : Nat) (c c' : Cdt) (f p f' p' : Option Vh), insertLoop crosses y n i c f p = ok (c', f', p') → I c → I c' := by
  intro n
  induction n with
  | zero => intro i c c' f p f' p' h hc; cases h; exact hc
  | succ n ih =>
    intro i c c' f p f' p' h hc
    unfold insertLoop at h
    obtain ⟨id, -, h⟩ := bind_ok h
    obtain ⟨sym, -, h⟩ := bind_ok h
    obtain ⟨⟨c1, v⟩, e1, h⟩ := bind_ok h
    have hc1 := h1 hc e1
    cases p with
    | none => exact ih _ _ _ _ _ _ _ h hc1
    | some p =>
      obtain ⟨c2, e2, h⟩ := bind_ok h
      exact ih _ _ _ _ _ _ _ h (h2 hc1 e2)

theorem keep_record (y : Info) {c c' : Cdt} (h : insertIntersection crosses c y = ok c') (hc : I c) : I c' := by
  unfold insertIntersection at h
  obtain ⟨⟨c1, f, p⟩, e1, h⟩ := bind_ok h
  have hc1 := keep_loop h1 h2 y _ _ _ _ _ _ _ _ e1 hc
  dsimp only at h
  split at h
  · split at h
    · exact h2 hc1 h
    · cases h
  · cases h; exact hc1

theorem keep_range : ∀ (rs : List Info) {c c' : Cdt}, insertRange crosses rs c = ok c' → I c → I c' := by
  intro rs
  induction rs with
  | nil => intro c c' h hc; cases h; exact hc
  | cons y rs ih =>
    intro c c' h hc
    obtain ⟨c1, e1, h⟩ := bind_ok h
    exact ih h (keep_record h1 h2 y e1 hc)
end keep

theorem record_same {y : Info} {c c' : Cdt} (h : insertIntersection crosses c y = ok c') : SameFace c c' := by
  refine keep_record (I := fun x => SameFace c x) (fun hc e => hc.trans (insert_keeps e).1) ?_ y h (.refl _)
  intro x x' i j hc e
  unfold Cdt.insertConstraint at e
  split at e
  · cases e
  · cases e; exact hc.trans ⟨rfl, rfl, rfl, rfl⟩

/-! ## All records of a face -/

theorem follows_or {k l k' l' : Nat} {e : Nat × Nat} (h : IsEdgeOf e k l) (h' : IsEdgeOf e k' l') : (k = k' ∧ l = l') ∨ (k = l' ∧ l = k') := by
  rcases h.2 with a | a <;> rcases h'.2 with a' | a' <;> rw [a'] at a <;> cases a
  · exact .inl ⟨rfl, rfl⟩
  · exact .inr ⟨rfl, rfl⟩
  · exact .inr ⟨rfl, rfl⟩
  · exact .inl ⟨rfl, rfl⟩

/-- The only exception is that of CGAL. -/
theorem range_any {c0 : Cdt} : ∀ (rs : List Info), (∀ y ∈ rs, y.syms.length = y.ids.length ∧ ∀ (i : Nat) id code, y.ids[i]? = some id → y.syms[i]? = some code → Fits c0 id code) → ∀ c, SameFace c0 c →
    insertRange crosses rs c = exn "Intersection_of_constraints_exception" ∨
    ∃ c', insertRange crosses rs c = ok c' ∧ (∀ q ∈ c.pairs, q ∈ c'.pairs) ∧ ∀ y ∈ rs, 2 ≤ y.ids.length → ∀ k l, Follows y.ids k l → (k, l) ∈ c'.pairs ∨ (l, k) ∈ c'.pairs := by
  intro rs
  induction rs with
  | nil => intro _ c _; exact .inr ⟨c, rfl, fun q hq => hq, by simp⟩
  | cons y rs ih =>
    intro hrs c hc
    obtain ⟨hl, hfit⟩ := hrs y (by simp)
    have step : insertRange crosses (y :: rs) c = (insertIntersection crosses c y).bind fun c => insertRange crosses rs c := rfl
    rcases Props.C63_constraints crosses c y hl (fun i id sym a b => hc.fits (hfit i id sym a b)) with e | ⟨c1, new, e, e1, -, e2⟩
    · left; rw [step, e]; rfl
    · have hs := record_same e
      rcases ih (fun y hy => hrs y (by simp [hy])) c1 (hc.trans hs) with h | ⟨c2, h, hq, hall⟩
      · left; rw [step, e]; exact h
      · refine .inr ⟨c2, by rw [step, e]; exact h, fun q hq' => hq q (by rw [e1]; exact List.mem_append_left _ hq'), ?_⟩
        intro y' hy' hlen k l hkl
        rcases List.mem_cons.1 hy' with rfl | hy'
        · obtain ⟨k', l', hm, he⟩ := (e2 (makeEdge k l)).2 ⟨hlen, k, l, hkl, (makeEdge_iff _ _ _).1 rfl⟩
          have hin : (k', l') ∈ c2.pairs := hq _ (by rw [e1]; exact List.mem_append_right _ hm)
          rcases follows_or ((makeEdge_iff (makeEdge k l) k l).1 rfl) he with ⟨rfl, rfl⟩ | ⟨rfl, rfl⟩
          · exact .inl hin
          · exact .inr hin
        · exact hall y' hy' hlen k l hkl

/-! ## All faces of an operand -/

/-- CGAL throws if a new constraint crosses an old one. -/
def Env.Throws (E : Env) : Prop := ∀ points (c : Cdt) i j x y x' y', c.Constraint points x y → points[c.info i]? = some x' → points[c.info j]? = some y' → Cross x y x' y' → E.crosses points c i j = true

theorem inside_ne {a b x : P3} (h : Inside a b x) : a ≠ b := by
  rintro rfl
  obtain ⟨⟨s, t, hs, -, -, hx⟩, h1, -⟩ := h
  apply h1
  rw [hx]
  obtain rfl : t = 1 - s := by linarith
  apply FaceFace.p3_ext <;> simp only <;> ring

theorem onLine_exch {a b c d : P3} (hne : a ≠ b) (h1 : OnLine c d a) (h2 : OnLine c d b) : OnLine a b c ∧ OnLine a b d := by
  obtain ⟨s, t, hs, rfl⟩ := h1
  obtain ⟨s', t', hs', rfl⟩ := h2
  have hd : t' - t ≠ 0 := by
    intro e
    apply hne
    obtain rfl : t' = t := by linarith
    obtain rfl : s' = s := by linarith
    rfl
  obtain rfl : s = 1 - t := by linarith
  obtain rfl : s' = 1 - t' := by linarith
  refine ⟨⟨t' / (t' - t), - t / (t' - t), by field_simp; ring, ?_⟩, ⟨- (1 - t') / (t' - t), (1 - t) / (t' - t), by field_simp; ring, ?_⟩⟩ <;>
    apply FaceFace.p3_ext <;> simp only <;> field_simp <;> ring

theorem cross_comm {a b c d : P3} (h : Cross a b c d) : Cross c d a b := by
  obtain ⟨⟨x, h1, h2⟩, hn⟩ := h
  exact ⟨⟨x, h2, h1⟩, fun ⟨k1, k2⟩ => hn (onLine_exch (inside_ne h1) k1 k2)⟩

theorem onSegment_swap {a b x : P3} (h : OnSegment a b x) : OnSegment b a x := by
  obtain ⟨s, t, hs, h0, h1, hx⟩ := h
  refine ⟨t, s, by linarith, h1, h0, ?_⟩
  rw [hx]
  apply FaceFace.p3_ext <;> simp only <;> ring

theorem cross_swap {a b c d : P3} (h : Cross a b c d) : Cross b a c d := by
  obtain ⟨⟨x, ⟨h1, h2, h3⟩, h4⟩, hn⟩ := h
  exact ⟨⟨x, ⟨onSegment_swap h1, h3, h2⟩, h4⟩, fun ⟨k1, k2⟩ => hn ⟨PointInserter.onLine_symm k1, PointInserter.onLine_symm k2⟩⟩

theorem no_cross (hT : E.Throws) : ∀ {rs : List Info} {c0 c : Cdt}, c0.constraints = [] → insertRange (E.crosses pts) rs c0 = ok c → ∀ x y x' y', c.Constraint pts x y → c.Constraint pts x' y' → ¬ Cross x y x' y' := by
  intro rs c0 c h0 h
  refine keep_range (crosses := E.crosses pts) (I := fun c => ∀ x y x' y', c.Constraint pts x y → c.Constraint pts x' y' → ¬ Cross x y x' y') ?_ ?_ rs h ?_
  · intro c c' id sym v hc e x y x' y' g1 g2
    obtain ⟨hs, he⟩ := insert_keeps e
    have up : ∀ {x y}, c'.Constraint pts x y → c.Constraint pts x y := by
      rintro x y ⟨q, hq, a, b⟩
      rw [he] at hq; rw [hs.info] at a b
      exact ⟨q, hq, a, b⟩
    exact hc x y x' y' (up g1) (up g2)
  · intro c c' i j hc e x y x' y' g1 g2 hx
    unfold Cdt.insertConstraint at e
    split at e
    · cases e
    · rename_i hcr
      cases e
      have hs : SameFace c { c with constraints := c.constraints ++ [(i, j)] } := ⟨rfl, rfl, rfl, rfl⟩
      have sp : ∀ {x y}, ({ c with constraints := c.constraints ++ [(i, j)] } : Cdt).Constraint pts x y → c.Constraint pts x y ∨ (pts[c.info i]? = some x ∧ pts[c.info j]? = some y) := by
        rintro x y ⟨q, hq, a, b⟩
        rw [hs.info] at a b
        rcases List.mem_append.1 hq with hq | hq
        · exact .inl ⟨q, hq, a, b⟩
        · rw [List.mem_singleton.1 hq] at a b; exact .inr ⟨a, b⟩
      rcases sp g1 with g1 | ⟨a, b⟩ <;> rcases sp g2 with g2 | ⟨a', b'⟩
      · exact hc x y x' y' g1 g2 hx
      · exact hcr (hT pts c i j x y x' y' g1 a' b' hx)
      · exact hcr (hT pts c i j x' y' x y g2 a b (cross_comm hx))
      · rw [a] at a'; rw [b] at b'; cases a'; cases b'
        exact hx.2 ⟨Cutting.onLine_left _ _, Cutting.onLine_right _ _⟩
  · rintro x y x' y' ⟨q, hq, -⟩
    rw [h0] at hq; cases hq

theorem body_any (h : Soups op s) (hP : Points op s pts infos) {b : Bool} {fi : Nat} (hne : ∃ x ∈ infos, keyOf b x = fi) {rs : List Info} (hrs : rs.Perm (infos.filter fun x => keyOf b x = fi)) :
    ∃ t g, ∃ f : Tri Nat, (op b)[fi]? = some t ∧ (s b).faces[fi]? = some g ∧ (idsOf s b)[g.a]? = some f.a ∧ (idsOf s b)[g.b]? = some f.b ∧ (idsOf s b)[g.c]? = some f.c ∧
      (insertRange crosses rs (Cdt.new (codeOf b) f.a f.b f.c) = exn "Intersection_of_constraints_exception" ∨
        ∃ c, insertRange crosses rs (Cdt.new (codeOf b) f.a f.b f.c) = ok c ∧ ∀ x y, CutSegment op b t x y → c.Constraint pts x y ∨ c.Constraint pts y x) := by
  have ht : ∃ t, (op b)[fi]? = some t := by
    obtain ⟨x, hx, e⟩ := hne
    obtain ⟨t, _, _, _, h1, -⟩ := record_cutter h hP b hx
    rw [e] at h1; exact ⟨t, h1⟩
  obtain ⟨t, ht⟩ := ht
  obtain ⟨g, f, hg, i1, i2, i3, hf, -⟩ := face_ids h ht
  have hseen := seen_of h hP ht hf hne
  refine ⟨t, g, f, ht, hg, i1, i2, i3, ?_⟩
  rcases range_any (crosses := crosses) (c0 := Cdt.new (codeOf b) f.a f.b f.c) rs (fun y hy => by
    obtain ⟨u, -, -, ws, hc⟩ := hseen.sound y (hrs.mem_iff.1 hy)
    exact ⟨hc.syms, hc.fits⟩) _ (.refl _) with e | ⟨c, e, -, hall⟩
  · exact .inl e
  · exact .inr ⟨c, e, seen_segments hseen (fun y => hrs.mem_iff) hall⟩

/-- Building the triangulations of an operand throws nothing but that the other one has self-intersections. -/
theorem build_any (h : Soups op s) (hE : E.Valid op) (hP : Points op s pts infos) {b : Bool} {sorted : List Info} (hp : sorted.Perm infos) (hs : sorted.Pairwise (fun x y => ¬ keyOf b y < keyOf b x)) {culprit : String} {o : Outcome Slots}
    (ho : buildAll E pts (codeOf b) (keyOf b) (s b).faces (idsOf s b) culprit sorted o) :
    (o = exn culprit ∧ ¬ Complex (op !b) ∧ infos ≠ []) ∨ (∃ m, o = ok m) ∧ (E.Throws → ∀ t ∈ op b, ∀ x y x' y', CutSegment op b t x y → CutSegment op b t x' y' → ¬ Cross x y x' y') := by
  have hs' : sorted.Pairwise (fun x y => keyOf b x ≤ keyOf b y) := hs.imp (fun h => by omega)
  obtain ⟨h1, -, -⟩ := ranges_spec (keyOf b) _ sorted (Nat.le_refl _) hs'
  have exc : ∀ r, ParallelDo.Returns (buildLoop (E.crosses pts) (codeOf b) (keyOf b) (s b).faces (idsOf s b) (ranges (keyOf b) sorted)) E.configured E.hardware () r → ∀ e, r.exc = some e → e = "Intersection_of_constraints_exception" ∧ infos ≠ [] := by
    intro r hr e he
    obtain ⟨c1, c2, c3, -⟩ := Props.C14_exceptions _ hE.threads hr
    rcases c3 e (c2 e he) with ⟨i, st, hi, hb⟩ | ⟨hp, -⟩
    · have hi' : i < (ranges (keyOf b) sorted).length := hi
      obtain ⟨x, xs, e1, e2⟩ := h1 _ (List.getElem_mem hi')
      have hx : x ∈ sorted := by
        have : x ∈ (ranges (keyOf b) sorted)[i] := by rw [e1]; simp
        rw [e2] at this
        exact (List.mem_filter.1 this).1
      refine ⟨?_, List.ne_nil_of_mem (hp.mem_iff.1 hx)⟩
      obtain ⟨t, g, f, -, hg, i1, i2, i3, hr⟩ := body_any (crosses := E.crosses pts) h hP (b := b) ⟨x, hp.mem_iff.1 hx, rfl⟩ (rs := x :: xs) (by rw [← e1, e2]; exact hp.filter _)
      simp only [buildLoop, List.getElem?_eq_getElem hi', e1, buildBody, at!, hg, i1, i2, i3, ok_bind] at hb
      rcases hr with hr | ⟨c, hr, -⟩
      · rw [hr] at hb
        have : (Except.error "Intersection_of_constraints_exception" : Except String Unit) = .error e := hb
        cases this; rfl
      · rw [hr] at hb; cases hb
    · cases hp
  have good : ∀ r, ParallelDo.Returns (buildLoop (E.crosses pts) (codeOf b) (keyOf b) (s b).faces (idsOf s b) (ranges (keyOf b) sorted)) E.configured E.hardware () r → r.exc = none →
      E.Throws → ∀ t ∈ op b, ∀ x y x' y', CutSegment op b t x y → CutSegment op b t x' y' → ¬ Cross x y x' y' := by
    intro r hr he hT t ht x y x' y' g1 g2 hx
    obtain ⟨fi, hfi⟩ := List.getElem?_of_mem ht
    have hne : ∃ x ∈ infos, keyOf b x = fi := by
      obtain ⟨ct, u, hu, cu, hj⟩ := g1
      obtain ⟨j, hj'⟩ := List.getElem?_of_mem hu
      obtain ⟨r, hr, e, -⟩ := record_complete hP hfi hj' ct cu hj.1.1.1 hj.1.1.2
      exact ⟨r, hr, e⟩
    have hg := Props.C65_grouping (E.crosses pts) (codeOf b) (keyOf b) (s b).faces (idsOf s b) infos sorted hp hs hE.threads hr he
    obtain ⟨g, a, b', c, recs, cdt, hgf, ha, hb, hc, hperm, hins, hst⟩ := (hg fi).2 hne
    obtain ⟨t', g', f, ht', hg', i1, i2, i3, hr'⟩ := body_any (crosses := E.crosses pts) h hP hne hperm
    rw [hfi] at ht'; cases ht'
    rw [hgf] at hg'; cases hg'
    rw [ha] at i1; cases i1
    rw [hb] at i2; cases i2
    rw [hc] at i3; cases i3
    rcases hr' with e | ⟨c', e, hseg⟩
    · rw [hins] at e; cases e
    · have nc := no_cross hT (c0 := Cdt.new (codeOf b) f.a f.b f.c) rfl e
      rcases hseg x y g1 with k1 | k1 <;> rcases hseg x' y' g2 with k2 | k2
      · exact nc _ _ _ _ k1 k2 hx
      · exact nc _ _ _ _ k1 k2 (cross_comm (cross_swap (cross_comm hx)))
      · exact nc _ _ _ _ k1 k2 (cross_swap hx)
      · exact nc _ _ _ _ k1 k2 (cross_comm (cross_swap (cross_comm (cross_swap hx))))
  by_cases hcx : Complex (op !b)
  · right
    obtain ⟨m, rfl, hm⟩ := build_all h hE hP hcx hp hs ho
    refine ⟨⟨m, rfl⟩, fun _ t ht x y x' y' g1 g2 hx => ?_⟩
    obtain ⟨-, u, hu, -, hj⟩ := g1
    obtain ⟨-, u', hu', -, hj'⟩ := g2
    exact Cutting.joined_apart hcx (ok_of_proper (h.proper b t ht)) hu hu' hj hj' hx
  · unfold buildAll Outcomes.andThen Outcomes.rename Outcomes.parallel Outcomes.one at ho
    rcases ho with ⟨r, ⟨o', ⟨r', hr, ho'⟩, e⟩, rfl⟩ | ⟨m, ⟨o', ⟨r', hr, ho'⟩, e⟩, rfl⟩ | ⟨m, ⟨o', ⟨r', hr, ho'⟩, e⟩, -⟩
    · right
      cases he : r'.exc with
      | none => exact ⟨⟨_, rfl⟩, good r' hr he⟩
      | some e' => rw [he] at ho'; subst ho'; cases e
    · left
      cases he : r'.exc with
      | none => rw [he] at ho'; subst ho'; cases e
      | some e' =>
        rw [he] at ho'; subst ho'
        obtain ⟨h1, h2⟩ := exc r' hr e' he
        rw [h1] at e
        simp only [if_true] at e
        cases e; exact ⟨rfl, hcx, h2⟩
    · cases he : r'.exc with
      | none => rw [he] at ho'; subst ho'; cases e
      | some e' => rw [he] at ho'; subst ho'; cases e

/-! ## The constructor -/

/-- The constructor for any operands: it throws nothing but that an operand has self-intersections, and this one has them.  It does so if cuts of a face cross. -/
theorem construct_any (h : Soups op s) (hE : E.Valid op) {o : Outcome State} (ho : construct E (s true) (s false) o) :
    (o = exn "the second mesh has self-intersections" ∧ ¬ Complex (op false) ∧ ∃ t ∈ op true, ∃ u ∈ op false, ∃ x, Common t u x) ∨
    ((E.Throws → ∀ t ∈ op true, ∀ x y x' y', CutSegment op true t x y → CutSegment op true t x' y' → ¬ Cross x y x' y') ∧
      ((o = exn "the first mesh has self-intersections" ∧ ¬ Complex (op true) ∧ ∃ t ∈ op true, ∃ u ∈ op false, ∃ x, Common t u x) ∨
      (∃ st, o = ok st) ∧ (E.Throws → ∀ t ∈ op false, ∀ x y x' y', CutSegment op false t x y → CutSegment op false t x' y' → ¬ Cross x y x' y'))) := by
  have step : ∀ {α β : Type} {x : Outcomes α} {f : α → Outcomes β} {o : Outcome β} {p : α → Prop}, Outcomes.andThen x f o → (∀ o', x o' → ∃ a, o' = ok a ∧ p a) → ∃ a, p a ∧ f a o := by
    rintro α β x f o p (⟨a, ha, hf⟩ | ⟨e, he, -⟩ | ⟨e, he, -⟩) hx
    · obtain ⟨a', e, hp⟩ := hx _ ha
      cases e; exact ⟨a, hp, hf⟩
    · obtain ⟨a', e, hp⟩ := hx _ he; cases e
    · obtain ⟨a', e, hp⟩ := hx _ he; cases e
  have step' : ∀ {α β : Type} {x : Outcomes α} {f : α → Outcomes β} {o : Outcome β} {p q : Prop} {m : String}, Outcomes.andThen x f o → (∀ o', x o' → (o' = exn m ∧ q) ∨ (∃ a, o' = ok a) ∧ p) → (o = exn m ∧ q) ∨ p ∧ ∃ a, f a o := by
    rintro α β x f o p q m (⟨a, ha, hf⟩ | ⟨e, he, ho⟩ | ⟨e, he, -⟩) hx
    · rcases hx _ ha with ⟨e, -⟩ | ⟨-, hp⟩
      · cases e
      · exact .inr ⟨hp, a, hf⟩
    · rcases hx _ he with ⟨e, hq⟩ | ⟨⟨a, e⟩, -⟩
      · cases e; exact .inl ⟨ho, hq⟩
      · cases e
    · rcases hx _ he with ⟨e, hq⟩ | ⟨⟨a, e⟩, -⟩ <;> cases e
  unfold construct at ho
  obtain ⟨tags, ht, ho⟩ := step (p := fun tags => Tags op (both tags.1 tags.2)) ho (by
    intro o' ho'
    exact tags_run h ho')
  obtain ⟨pairs, hp, ho⟩ := step (p := fun pairs => Pairs op pairs) ho (by
    rintro o' ⟨r, hr, rfl⟩
    obtain ⟨h1, h2⟩ := pairs_ok hE ht hr
    exact ⟨r.acc, by rw [h1], h2⟩)
  obtain ⟨found, ⟨hf, hnil⟩, ho⟩ := step (p := fun found => Records op s found.acc ∧ ∀ x ∈ found.acc, x.ids = []) ho (by
    rintro o' ⟨r, hr, rfl⟩
    obtain ⟨h1, h2, h3⟩ := records_ok h hp hE.threads hr
    exact ⟨r, by rw [h1], h2, h3⟩)
  obtain ⟨made, hm, ho⟩ := step (p := fun made => Points op s made.1.points.points made.2) ho (by
    rintro o' rfl
    obtain ⟨st, out, h1, h2⟩ := points_ok h hE.lines hE.planes hf hnil
    exact ⟨(st, out), h1, h2⟩)
  obtain ⟨byLeft, ⟨hl1, hl2⟩, ho⟩ := step (p := fun l => l.Perm made.2 ∧ l.Pairwise (fun x y => ¬ keyOf true y < keyOf true x)) ho (by
    rintro o' ⟨l, hl, rfl⟩
    exact ⟨l, rfl, hl⟩)
  have hmeet : made.2 ≠ [] → ∃ t ∈ op true, ∃ u ∈ op false, ∃ x, Common t u x := by
    intro hne
    obtain ⟨y, hy⟩ := List.exists_mem_of_ne_nil _ hne
    obtain ⟨t, u, l, r, hr⟩ := hm.records y hy
    obtain ⟨r1, r2⟩ := recorded_refers h hr.toRecorded
    obtain ⟨syms, e, hs⟩ := FaceFace.C33_detection (two_of h hr.left hr.right r1 r2)
    rw [hr.syms] at e; cases e
    obtain ⟨x, h1, h2⟩ := hs.1 hr.ne
    exact ⟨t, List.mem_of_getElem? hr.left, u, List.mem_of_getElem? hr.right, x, h1, h2⟩
  rcases step' ho (fun o' ho' => build_any (b := true) h hE hm hl1 hl2 ho') with ⟨e, hb, hn⟩ | ⟨g1, lm, ho⟩
  · exact .inl ⟨e, hb, hmeet hn⟩
  refine .inr ⟨g1, ?_⟩
  obtain ⟨byRight, ⟨hr1, hr2⟩, ho⟩ := step (p := fun l => l.Perm byLeft ∧ l.Pairwise (fun x y => ¬ keyOf false y < keyOf false x)) ho (by
    rintro o' ⟨l, hl, rfl⟩
    exact ⟨l, rfl, hl⟩)
  rcases step' ho (fun o' ho' => build_any (b := false) h hE hm (hr1.trans hl1) hr2 ho') with ⟨e, hb, hn⟩ | ⟨g2, rm, ho⟩
  · exact .inl ⟨e, hb, hmeet hn⟩
  · exact .inr ⟨⟨_, ho⟩, g2⟩

end Kigumi.Corefine

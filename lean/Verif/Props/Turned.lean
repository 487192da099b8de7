import Verif.Props.Conforming

/-! # C116: complements of operands -/
namespace Kigumi.Props
open Kigumi Outcome Geo Spec.Triangles Spec.Side FaceFace Space
open Kigumi.Spec (SameTri HasCorners operandTris RegionInv select truth onSets flipSoup)
open Kigumi.Corefine (Env Gives GivesBy Operands both)
open Kigumi.Cutting (Cuts Laid)
variable {D : Type} {ord ord' : Tri P3 → P3 → P3 → Prop} {E F : Env} {E' F' : Mix.Env} {orig orig' : Bool → List (Tri P3)} {χ : Bool → P3 → Prop} {a b c c' : Region P3 D} {bb bb' : Builder P3 D} {w w' : Global.Warnings} {op op' : Op} {pf : Bool} {p t u : Tri P3} {d : D} {k : Bool → Bool}

/-! ## Inverted triangles -/

/-- The triangle, inverted or not. -/
def turn (k : Bool) (t : Tri P3) : Tri P3 := if k then t.flip else t

theorem turn_turn (k : Bool) (t : Tri P3) : turn k (turn k t) = t := by cases k <;> rfl

theorem turn_map (k : Bool) (ts : List (Tri P3)) : (ts.map (turn k)).map (turn k) = ts := by
  rw [List.map_map]
  exact (List.map_congr_left fun t _ => turn_turn k t).trans (List.map_id _)

theorem match_turn (k : Bool) (t : Tri P3) : Match (turn k t) t := by
  cases k
  · exact match_refl t
  · exact .inr (.inl rfl)

theorem in_turn {k : Bool} {t : Tri P3} {x : P3} : In (turn k t) x ↔ In t x := ⟨in_match (match_turn k t), in_match (match_symm (match_turn k t))⟩

theorem inner_turn {k : Bool} {t : Tri P3} {x : P3} : Inner (turn k t) x ↔ Inner t x := ⟨inner_match (match_turn k t), inner_match (match_symm (match_turn k t))⟩

theorem mem_turn {k : Bool} {t : Tri P3} {x : P3} : x ∈ (turn k t).toList ↔ x ∈ t.toList := match_mem (match_turn k t) x

theorem sameTri_turn {k : Bool} {t u : Tri P3} (h : SameTri t u) : SameTri (turn k t) (turn k u) := by
  cases k
  exacts [h, sameTri_flip h]

theorem part_turn (k : Bool) (ts : List (Tri P3)) : Complex ts → Complex (ts.map (turn k)) := by
  intro h
  refine part_complex h fun t ht => ?_
  obtain ⟨u, hu, rfl⟩ := List.mem_map.1 ht
  exact ⟨u, hu, match_symm (match_turn k u)⟩

theorem once_turn (k : Bool) {ts : List (Tri P3)} (h : Once ts) : Once (ts.map (turn k)) := by
  intro i j t u hi hj hm
  simp only [List.getElem?_map, Option.map_eq_some_iff] at hi hj
  obtain ⟨t, hi, rfl⟩ := hi
  obtain ⟨u, hj, rfl⟩ := hj
  exact h i j t u hi hj (match_trans (match_symm (match_turn k t)) (match_trans hm (match_turn k u)))

theorem surface_turn {k : Bool} {ts : List (Tri P3)} {x : P3} : Surface (ts.map (turn k)) x ↔ Surface ts x := by
  constructor
  · rintro ⟨t, ht, hx⟩
    obtain ⟨u, hu, rfl⟩ := List.mem_map.1 ht
    exact ⟨u, hu, in_turn.1 hx⟩
  · rintro ⟨t, ht, hx⟩
    exact ⟨_, List.mem_map_of_mem ht, in_turn.2 hx⟩

theorem common_turn (k l : Bool) (t u : Tri P3) : Common (turn k t) (turn l u) = Common t u := by
  funext x
  exact propext (and_congr in_turn in_turn)

theorem sameEdge_turn {k : Bool} {t : Tri P3} {x y : P3} : SameEdge (turn k t).a (turn k t).b (turn k t).c x y ↔ SameEdge t.a t.b t.c x y := by
  cases k
  · rfl
  · have sw : ∀ {p q z : P3}, OnSegment p q z ↔ OnSegment q p z := ⟨Side.onSegment_swap, Side.onSegment_swap⟩
    show (OnSegment t.a t.c x ∧ OnSegment t.a t.c y) ∨ (OnSegment t.c t.b x ∧ OnSegment t.c t.b y) ∨ (OnSegment t.b t.a x ∧ OnSegment t.b t.a y) ↔ (OnSegment t.a t.b x ∧ OnSegment t.a t.b y) ∨ (OnSegment t.b t.c x ∧ OnSegment t.b t.c y) ∨ (OnSegment t.c t.a x ∧ OnSegment t.c t.a y)
    rw [sw (p := t.a) (q := t.c), sw (p := t.a) (q := t.c), sw (p := t.c) (q := t.b), sw (p := t.c) (q := t.b), sw (p := t.b) (q := t.a), sw (p := t.b) (q := t.a)]
    constructor
    · rintro (h | h | h)
      exacts [.inr (.inr h), .inr (.inl h), .inl h]
    · rintro (h | h | h)
      exacts [.inr (.inr h), .inr (.inl h), .inl h]

theorem joined_turn {k l : Bool} {t u : Tri P3} {x y : P3} : Joined (turn k t) (turn l u) x y ↔ Joined t u x y := by
  unfold Spec.Side.Joined
  rw [common_turn, sameEdge_turn, sameEdge_turn]

theorem triangulates_turn (k : Bool) {t : Tri P3} {V : P3 → Prop} {S : P3 → P3 → Prop} {ps : List (Tri P3)} (T : Triangulates t V S ps) : Triangulates (turn k t) V S (ps.map (turn k)) where
  complex := part_turn k ps T.complex
  once := once_turn k T.once
  inside p hp x hx := by
    obtain ⟨q, hq, rfl⟩ := List.mem_map.1 hp
    exact in_turn.2 (T.inside q hq x (in_turn.1 hx))
  cover x hx := surface_turn.2 (T.cover x (in_turn.1 hx))
  oriented p hp := by
    obtain ⟨q, hq, rfl⟩ := List.mem_map.1 hp
    obtain ⟨r, hr, e⟩ := T.oriented q hq
    refine ⟨r, hr, ?_⟩
    cases k
    · exact e
    · show outward q.flip = ⟨r * (outward t.flip).x, r * (outward t.flip).y, r * (outward t.flip).z⟩
      rw [Cutting.outward_flip, Cutting.outward_flip, e]
      simp
  corner p hp v hv := by
    obtain ⟨q, hq, rfl⟩ := List.mem_map.1 hp
    rw [mem_turn] at hv ⊢
    exact T.corner q hq v hv
  vertex p hp v hv hx := by
    obtain ⟨q, hq, rfl⟩ := List.mem_map.1 hp
    rw [mem_turn] at hv ⊢
    exact T.vertex q hq v hv (in_turn.1 hx)
  segment c d x hs hx := by
    obtain ⟨q, hq, c', hc, d', hd, h⟩ := T.segment c d x hs hx
    exact ⟨_, List.mem_map_of_mem hq, c', mem_turn.2 hc, d', mem_turn.2 hd, h⟩
  delaunay p hp v hv y hy hs o h1 h2 := by
    obtain ⟨q, hq, rfl⟩ := List.mem_map.1 hp
    rw [mem_turn] at hv
    have := T.delaunay q hq v hv y (inner_turn.1 hy) hs o
    cases k
    · exact this h1 h2
    · exact this (h1.trans h2) h2.symm

/-! ## Inverted operands -/

/-- The operands of `orig'` are those of `orig`, inverted according to `k`. -/
def Turned (k : Bool → Bool) (orig orig' : Bool → List (Tri P3)) : Prop := ∀ x, orig' x = (orig x).map (turn (k x))

theorem turned_symm (h : Turned k orig orig') : Turned k orig' orig := fun x => by rw [h x, turn_map]

theorem turned_mem (h : Turned k orig orig') {x : Bool} (ht : t ∈ orig x) : turn (k x) t ∈ orig' x := by rw [h x]; exact List.mem_map_of_mem ht

theorem coincides_turn' (h : Turned k orig orig') {x : Bool} (hc : Coincides orig x t) (l : Bool) : Coincides orig' x (turn l t) := by
  obtain ⟨u, hu, hm⟩ := hc
  exact ⟨_, turned_mem h hu, match_trans (match_turn l t) (match_trans hm (match_symm (match_turn _ u)))⟩

theorem coincides_turn (h : Turned k orig orig') (x l : Bool) : Coincides orig' x (turn l t) ↔ Coincides orig x t :=
  ⟨fun hc => turn_turn l t ▸ coincides_turn' (turned_symm h) hc l, fun hc => coincides_turn' h hc l⟩

theorem cutVertex_turn (h : Turned k orig orig') (x : Bool) (y : P3) : CutVertex orig' x (turn (k x) t) y ↔ CutVertex orig x t y := by
  unfold CutVertex
  rw [coincides_turn h]
  refine and_congr Iff.rfl ⟨?_, ?_⟩
  · rintro ⟨u, hu, hn, he⟩
    rw [h (!x)] at hu
    obtain ⟨u, hu', rfl⟩ := List.mem_map.1 hu
    rw [coincides_turn h] at hn
    rw [common_turn] at he
    exact ⟨u, hu', hn, he⟩
  · rintro ⟨u, hu, hn, he⟩
    exact ⟨_, turned_mem h hu, by rw [coincides_turn h]; exact hn, by rw [common_turn]; exact he⟩

theorem cutSegment_turn (h : Turned k orig orig') (x : Bool) (y z : P3) : CutSegment orig' x (turn (k x) t) y z ↔ CutSegment orig x t y z := by
  unfold CutSegment
  rw [coincides_turn h]
  refine and_congr Iff.rfl ⟨?_, ?_⟩
  · rintro ⟨u, hu, hn, he⟩
    rw [h (!x)] at hu
    obtain ⟨u, hu', rfl⟩ := List.mem_map.1 hu
    rw [coincides_turn h] at hn
    exact ⟨u, hu', hn, joined_turn.1 he⟩
  · rintro ⟨u, hu, hn, he⟩
    exact ⟨_, turned_mem h hu, by rw [coincides_turn h]; exact hn, joined_turn.2 he⟩

theorem cuts_turn (h : Turned k orig orig') {cut : Bool → Tri P3 → List (Tri P3)} (hc : Cuts orig' cut) : Cuts orig fun x t => (cut x (turn (k x) t)).map (turn (k x)) where
  complex x := by rw [turned_symm h x]; exact part_turn _ _ (hc.complex x)
  once x := by rw [turned_symm h x]; exact once_turn _ (hc.once x)
  tri x t ht := by
    have T := triangulates_turn (k x) (hc.tri x _ (turned_mem h ht))
    rw [turn_turn] at T
    have e1 : CutVertex orig' x (turn (k x) t) = CutVertex orig x t := funext fun y => propext (cutVertex_turn h x y)
    have e2 : CutSegment orig' x (turn (k x) t) = CutSegment orig x t := funext fun y => funext fun z => propext (cutSegment_turn h x y z)
    rw [e1, e2] at T
    exact T

theorem vertexOf_turn (h : Turned k orig orig') {x : Bool} {y : P3} (hv : VertexOf orig' x (turn (k x) t) y) : VertexOf orig x t y := by
  rcases hv with hv | ⟨u, hu, he⟩
  · exact .inl (mem_turn.1 hv)
  · rw [h (!x)] at hu
    obtain ⟨u, hu', rfl⟩ := List.mem_map.1 hu
    rw [common_turn] at he
    exact .inr ⟨u, hu', he⟩

theorem noFour_turn (h : Turned k orig orig') (hg : NoFourVertices orig) : NoFourVertices orig' := by
  intro x t ht o p q r s h1 h2 h3 h4
  rw [h x] at ht
  obtain ⟨t, ht', rfl⟩ := List.mem_map.1 ht
  exact hg x t ht' o p q r s (vertexOf_turn h h1) (vertexOf_turn h h2) (vertexOf_turn h h3) (vertexOf_turn h h4)

theorem manifold_turn (h : Turned k orig orig') (hman : ManifoldWhereCoinciding orig) : ManifoldWhereCoinciding orig' := by
  intro x t ht hc p hp q hq hne
  rw [h x] at ht
  obtain ⟨t, ht', rfl⟩ := List.mem_map.1 ht
  rw [coincides_turn h] at hc
  rw [mem_turn] at hp hq
  obtain ⟨t1, m1, t2, m2, hn, e1, e2, hall⟩ := hman x t ht' hc p hp q hq hne
  refine ⟨_, turned_mem h m1, _, turned_mem h m2, fun e => hn ?_, by simpa only [mem_turn] using e1, by simpa only [mem_turn] using e2, ?_⟩
  · rw [← turn_turn (k x) t1, e, turn_turn]
  · intro u hu k1 k2
    rw [h x] at hu
    obtain ⟨u, hu', rfl⟩ := List.mem_map.1 hu
    rw [mem_turn] at k1 k2
    rcases hall u hu' k1 k2 with rfl | rfl
    exacts [.inl rfl, .inr rfl]

/-- There is only one way to cut the operands. -/
theorem only_way (hg : NoFourVertices orig) {cut cut' : Bool → Tri P3 → List (Tri P3)} (h : Cuts orig cut) (h' : Cuts orig cut') {x : Bool} (ht : t ∈ orig x) (hp : p ∈ cut x t) : ∃ r ∈ cut' x t, SameTri p r := by
  refine Cutting.unique_triangles (h.tri x t ht) (h'.tri x t ht) ((h.complex x).proper t ht) ?_ hp
  have hv : ∀ y, CutVertex orig x t y ∨ y ∈ t.toList → VertexOf orig x t y := by
    rintro y (⟨-, u, hu, -, he⟩ | hy)
    exacts [.inr ⟨u, hu, he⟩, .inl hy]
  exact fun o w y z v k1 k2 k3 k4 => hg x t ht o w y z v (hv _ k1) (hv _ k2) (hv _ k3) (hv _ k4)

section
variable {s s' : Bool → Soup P3 D} {m m' : Soup P3 (MixedData D)} {ts ts' : List (Tri P3)} {cut cut' : Bool → Tri P3 → List (Tri P3)}

theorem turned_piece (h : Turned k orig orig') (hg : NoFourVertices orig') (hc : Cuts orig cut) (hc' : Cuts orig' cut') {x : Bool} (ht : t ∈ orig x) (hp : p ∈ cut x t) : ∃ r ∈ cut' x (turn (k x) t), SameTri (turn (k x) p) r := by
  refine only_way hg (cuts_turn (turned_symm h) hc) hc' (turned_mem h ht) ?_
  rw [turn_turn]
  exact List.mem_map_of_mem hp

theorem turned_tri (h : Turned k orig orig') (hg : NoFourVertices orig') (hm : Made ord orig s m ts cut) (hm' : Made ord' orig' s' m' ts' cut') (x : Bool) : ∀ p ∈ operandTris ts m.data x, ∃ r ∈ operandTris ts' m'.data x, SameTri (turn (k x) p) r := by
  intro p hp
  rw [hm.tris, List.mem_flatMap] at hp
  obtain ⟨t, ht, hp⟩ := hp
  obtain ⟨r, hr, hs⟩ := turned_piece h hg hm.cuts hm'.cuts ht hp
  exact ⟨r, by rw [hm'.tris, List.mem_flatMap]; exact ⟨_, turned_mem h ht, hr⟩, hs⟩

theorem turned_same (h : Turned k orig orig') (hg : NoFourVertices orig') (hm : Made ord orig s m ts cut) (hm' : Made ord' orig' s' m' ts' cut') (hdata : ∀ x, (s' x).data = (s x).data) {i : Nat} {md : MixedData D} (hp : ts[i]? = some p) (hd : m.data[i]? = some md) :
    ∃ (j : Nat) (r : Tri P3) (md' : MixedData D), ts'[j]? = some r ∧ m'.data[j]? = some md' ∧ SameTri (turn (k md.fromLeft) p) r ∧ md'.fromLeft = md.fromLeft ∧ md'.data = md.data := by
  obtain ⟨j, t, ht, hpt, hj⟩ := hm.from_ i p md hp hd
  have htm := List.mem_of_getElem? ht
  obtain ⟨r, hr, hs⟩ := turned_piece h hg hm.cuts hm'.cuts htm hpt
  have htm' := turned_mem h htm
  have hmem : r ∈ operandTris ts' m'.data md.fromLeft := by rw [hm'.tris, List.mem_flatMap]; exact ⟨_, htm', hr⟩
  obtain ⟨l, md', h1, h2, h3⟩ := Cutting.mem_operand.1 hmem
  refine ⟨l, r, md', h1, h2, hs, h3, ?_⟩
  obtain ⟨j', t', ht', hpt', hj'⟩ := hm'.from_ l r md' h1 h2
  rw [h3] at ht' hpt' hj'
  obtain rfl := Cutting.pieces_apart hm'.cuts htm' (List.mem_of_getElem? ht') hr hpt' (match_refl _)
  have e : (orig' md.fromLeft)[j]? = some (turn (k md.fromLeft) t) := by rw [h, List.getElem?_map, ht]; rfl
  rw [← once_index (hm'.cuts.once _) e ht', hdata, hj] at hj'
  exact (Option.some.inj hj').symm

end

/-- Where a face is, if faces and sets are inverted: `l` says whether the face is, and `r` whether the other operand is. -/
def turnTag (l r : Bool) : Tag → Tag
  | .unknown => .unknown
  | .coplanar => if l = r then .coplanar else .opposite
  | .opposite => if l = r then .opposite else .coplanar
  | .interior => if r then .exterior else .interior
  | .exterior => if r then .interior else .exterior

/-- The set or its complement. -/
def turnSet (k : Bool) (A : P3 → Prop) (x : P3) : Prop := if k then ¬ A x else A x

theorem right_turn {l r : Bool} {q : Tri P3} {us us' : List (Tri P3)} {ψ : P3 → Prop} {g : Tag} (hs : SameTri (turn l t) q) (h1 : ∀ u ∈ us, ∃ v ∈ us', SameTri (turn r u) v) (h2 : ∀ v ∈ us', ∃ u ∈ us, SameTri (turn r v) u) (h : RightTag t us ψ g) : RightTag q us' (turnSet r ψ) (turnTag l r g) := by
  have hm : Match t q := match_trans (match_symm (match_turn l t)) (.inl hs)
  have no : (∀ u ∈ us, ¬ Match t u) → ∀ v ∈ us', ¬ Match q v := by
    intro hn v hv hqv
    obtain ⟨u, hu, huv⟩ := h2 v hv
    exact hn u hu (match_trans hm (match_trans hqv (match_trans (match_symm (match_turn r v)) (.inl huv))))
  have inn : ∀ x, Inner q x → Inner t x := fun x hx => inner_match (match_symm hm) hx
  cases g with
  | unknown => exact h
  | coplanar =>
    obtain ⟨u, hu, e⟩ := h
    obtain ⟨v, hv, e'⟩ := h1 u hu
    cases l <;> cases r
    · exact ⟨v, hv, sameTri_trans (sameTri_symm hs) (sameTri_trans e e')⟩
    · exact ⟨v, hv, sameTri_trans (sameTri_flip (sameTri_symm hs)) (sameTri_trans (sameTri_flip e) e')⟩
    · exact ⟨v, hv, sameTri_trans (sameTri_flip (sameTri_symm hs)) (sameTri_trans e e')⟩
    · exact ⟨v, hv, sameTri_trans (sameTri_symm hs) (sameTri_trans (sameTri_flip e) e')⟩
  | opposite =>
    obtain ⟨u, hu, e⟩ := h
    obtain ⟨v, hv, e'⟩ := h1 u hu
    cases l <;> cases r
    · exact ⟨v, hv, sameTri_trans (sameTri_flip (sameTri_symm hs)) (sameTri_trans e e')⟩
    · exact ⟨v, hv, sameTri_trans (sameTri_symm hs) (sameTri_trans (sameTri_flip e) e')⟩
    · exact ⟨v, hv, sameTri_trans (sameTri_symm hs) (sameTri_trans e e')⟩
    · exact ⟨v, hv, sameTri_trans (sameTri_flip (sameTri_symm hs)) (sameTri_trans (sameTri_flip e) e')⟩
  | interior =>
    cases r
    · exact ⟨no h.1, fun x hx => h.2 x (inn x hx)⟩
    · exact ⟨no h.1, fun x hx => not_not_intro (h.2 x (inn x hx))⟩
  | exterior =>
    cases r
    · exact ⟨no h.1, fun x hx => h.2 x (inn x hx)⟩
    · exact ⟨no h.1, fun x hx => h.2 x (inn x hx)⟩

theorem select_turn (hop : ∀ x y, truth op' x y = truth op (x ^^ k true) (y ^^ k false)) (l : Bool) (g : Tag) (inv : Bool) (h : select op pf l g = some inv) : select op' pf l (turnTag (k l) (k !l) g) = some (inv ^^ k l) := by
  have e := fun x y => (hop x y).symm
  cases l <;> cases g <;> cases pf <;> cases k1 : k true <;> cases k2 : k false <;>
    simp only [k1, k2, Bool.xor_true, Bool.xor_false, select, Spec.sides, turnTag, hop] at h ⊢ <;> simp_all <;> (revert h; generalize truth op true true = v1; generalize truth op true false = v2; generalize truth op false true = v3; generalize truth op false false = v4; revert v1 v2 v3 v4 inv; decide)

theorem turned_there {s s' : Bool → Soup P3 D} {ts ts' : List (Tri P3)} {cut cut' : Bool → Tri P3 → List (Tri P3)} (h : Turned k orig orig') (hg : NoFourVertices orig) (hg' : NoFourVertices orig') (hdata : ∀ x, (s' x).data = (s x).data) (m : Made ord orig s bb.m ts cut) (htag : Tagged bb.m ts χ) (m' : Made ord' orig' s' bb'.m ts' cut') (hcx' : Complex ts') (htag' : Tagged bb'.m ts' fun x => turnSet (k x) (χ x))
    (hop : ∀ x y, truth op' x y = truth op (x ^^ k true) (y ^^ k false)) (hr : bb.run op pf = ok c) (hr' : bb'.run op' pf = ok c') (hf : HasFace c.boundary p d) : ∃ p', HasFace c'.boundary p' d ∧ SameTri p p' := by
  obtain ⟨i, q, md, inv, hq, hmd, rfl, hsel, rfl⟩ := run_faces m.corners m.data hr hf
  obtain ⟨j, r, md', hr1, hmd', hs, hl, hdat⟩ := turned_same h hg' m m' hdata hq hmd
  have hm1 : (q, md) ∈ ts.zip bb.m.data := List.mem_of_getElem? (List.getElem?_zip_eq_some.2 ⟨hq, hmd⟩)
  have hm2 : (r, md') ∈ ts'.zip bb'.m.data := List.mem_of_getElem? (List.getElem?_zip_eq_some.2 ⟨hr1, hmd'⟩)
  have t1 := htag _ hm1
  have t2 := htag' _ hm2
  simp only at t1 t2
  rw [hl] at t2
  have t1' := right_turn hs (turned_tri h hg' m m' _) (turned_tri (turned_symm h) hg m' m _) t1
  have et := right_unique (hcx'.proper r (List.mem_of_getElem? hr1)) (m'.once _) t2 t1'
  refine ⟨_, hdat ▸ run_has m'.corners m'.data hr' hr1 hmd' (by rw [hl, et]; exact select_turn hop _ _ _ hsel), ?_⟩
  generalize k md.fromLeft = l at hs
  cases inv <;> cases l
  exacts [hs, sameTri_flip hs, sameTri_flip hs, hs]

theorem turnSet_turnSet (l : Bool) (A : P3 → Prop) : turnSet l (turnSet l A) = A := by
  funext x
  cases l
  · rfl
  · exact propext not_not

theorem onSets_turn (hop : ∀ x y, truth op' x y = truth op (x ^^ k true) (y ^^ k false)) (A : Bool → P3 → Prop) : (fun x => x ∈ onSets op' {x | turnSet (k true) (A true) x} {x | turnSet (k false) (A false) x}) = fun x => x ∈ onSets op {x | A true x} {x | A false x} := by
  classical
  funext x
  refine propext ?_
  rw [← C01_truth_is_set_operation op' {x | turnSet (k true) (A true) x} {x | turnSet (k false) (A false) x} x (decide (A true x) ^^ k true) (decide (A false x) ^^ k false) (by cases k true <;> simp [turnSet]) (by cases k false <;> simp [turnSet]),
    ← C01_truth_is_set_operation op {x | A true x} {x | A false x} x (decide (A true x)) (decide (A false x)) (by simp) (by simp), hop, Bool.xor_assoc, Bool.xor_assoc, Bool.xor_self, Bool.xor_self, Bool.xor_false, Bool.xor_false]

theorem turned_surface (h : Turned k orig orig') (x : Bool) (y : P3) : Surface (orig' x) y ↔ Surface (orig x) y := by rw [h x, surface_turn]

/-- **Complements of operands.** Two executions, the second with operands of which some are replaced by their complements, and with the operator that does the same for the complements, give regions of the same kind with the same faces and the same data. -/
theorem C116_turned {a' b' : Region P3 D} (ha : IsSolid a (orig true) (χ true)) (hb : IsSolid b (orig false) (χ false)) (ha' : IsSolid a' (orig' true) (turnSet (k true) (χ true))) (hb' : IsSolid b' (orig' false) (turnSet (k false) (χ false))) (ht : Turned k orig orig') (hda : a'.boundary.data = a.boundary.data) (hdb : b'.boundary.data = b.boundary.data)
    (hka : a.kind = .boundaryDefined) (hkb : b.kind = .boundaryDefined) (hka' : a'.kind = .boundaryDefined) (hkb' : b'.kind = .boundaryDefined) (hE : E.Valid orig) (hF : F.Valid orig') (hg : NoFourVertices orig) (hman : ManifoldWhereCoinciding orig) (hE' : E'.Valid orig) (hF' : F'.Valid orig')
    (h : Mix.Built E' (Gives E) a b bb w) (h' : Mix.Built F' (Gives F) a' b' bb' w') (hop : ∀ x y, truth op' x y = truth op (x ^^ k true) (y ^^ k false)) (pf : Bool) :
    ∃ c c', bb.run op pf = ok c ∧ bb'.run op' pf = ok c' ∧ c.kind = c'.kind ∧ SameFaces c.boundary c'.boundary := by
  have hg' := noFour_turn ht hg
  have hset := Cutting.settled_noFour (ord := fun _ _ _ => False) (noFour_of_vertices hg)
  have hset' := Cutting.settled_noFour (ord := fun _ _ _ => False) (noFour_of_vertices hg')
  have hman' := manifold_turn ht hman
  rw [Corefine.gives_eq] at h h'
  obtain ⟨-, c, hr, hden⟩ := boolean_by ha hb hE hset hman hE' h op pf
  obtain ⟨-, c', hr', hden'⟩ := boolean_by (χ := fun x => turnSet (k x) (χ x)) ha' hb' hF hset' hman' hF' h' op' pf
  have hW : ∀ t ∈ orig true ++ orig false, Proper t := fun t ht => (List.mem_append.1 ht).elim (ha.complex.proper t) (hb.complex.proper t)
  have hreg' := C97_regularizes hden' hW fun _ hx => surface_append.2 (hx.imp (turned_surface ht _ _).1 (turned_surface ht _ _).1)
  rw [onSets_turn hop] at hreg'
  obtain ⟨k1, k2, -⟩ := C97_same (C97_regularizes hden hW fun _ hx => surface_append.2 hx) hreg' fun _ => Iff.rfl
  have hk : c.kind = c'.kind := by
    simp only [Region.isEmpty, Region.isFull] at k1 k2
    cases e : c.kind <;> cases e' : c'.kind <;> simp_all
  obtain ⟨rs, ψ, hc, -⟩ := hden
  obtain ⟨rs', ψ', hc', -⟩ := hden'
  refine ⟨c, c', hr, hr', hk, ?_⟩
  obtain ⟨ts, cut, m, hcx, htag⟩ := built_made ha hb hE hset hman hE' h (by simp [Region.isEmptyOrFull, Region.isEmpty, Region.isFull, hka, hkb])
  obtain ⟨ts', cut', m', hcx', htag'⟩ := built_made (χ := fun x => turnSet (k x) (χ x)) ha' hb' hF hset' hman' hF' h' (by simp [Region.isEmptyOrFull, Region.isEmpty, Region.isFull, hka', hkb'])
  have hd : ∀ x, (both a'.boundary b'.boundary x).data = (both a.boundary b.boundary x).data := by
    intro x
    cases x
    exacts [hdb, hda]
  have t := fun p d hf => turned_there (p := p) (d := d) ht hg hg' hd m htag m' hcx' htag' hop hr hr' hf
  have htag2 : Tagged bb.m ts fun x => turnSet (k x) (turnSet (k x) (χ x)) := by
    simp only [turnSet_turnSet]
    exact htag
  have t' := fun p d hf => turned_there (p := p) (d := d) (turned_symm ht) hg' hg (fun x => (hd x).symm) m' htag' m hcx htag2 (fun x y => by rw [hop, Bool.xor_assoc, Bool.xor_assoc, Bool.xor_self, Bool.xor_self, Bool.xor_false, Bool.xor_false]) hr' hr hf
  exact ⟨t, t', le_antisymm (faces_le hc hc' t) (faces_le hc' hc t')⟩

/-! ## Complements -/

theorem solid_complement {ts : List (Tri P3)} {ψ : P3 → Prop} (ha : IsSolid a ts ψ) (hk : a.kind = .boundaryDefined) : IsSolid (Spec.complement a) (ts.map (turn true)) (turnSet true ψ) := by
  have e : Spec.complement a = ⟨.boundaryDefined, flipSoup a.boundary⟩ := by unfold Spec.complement; rw [hk]
  have hne : a.boundary.faces ≠ [] := by
    have := ha.inv
    unfold RegionInv at this
    rw [hk] at this
    exact this
  rw [e]
  refine ⟨?_, ⟨?_, ?_⟩, ?_, part_turn true ts ha.complex, once_turn true ha.once, ⟨?_, ?_⟩, ?_⟩
  · show a.boundary.faces.map Tri.flip ≠ []
    simpa using hne
  · show a.boundary.data.length = (a.boundary.faces.map Tri.flip).length
    rw [List.length_map]
    exact ha.wf.1
  · intro f hf v hv
    obtain ⟨g, hg, rfl⟩ := List.mem_map.1 hf
    refine ha.wf.2 g hg v ?_
    simp only [Tri.toList, Tri.flip, List.mem_cons, List.not_mem_nil, or_false] at hv ⊢
    tauto
  · show List.Forall₂ _ (a.boundary.faces.map Tri.flip) (ts.map (turn true))
    rw [List.forall₂_map_left_iff, List.forall₂_map_right_iff]
    exact ha.corners.imp fun f t ⟨h1, h2, h3⟩ => ⟨h1, h3, h2⟩
  · intro x y h
    exact not_congr (ha.bounds.const x y fun z hz hs => h z hz (surface_turn.2 hs))
  · intro i t x hi hs
    simp only [List.getElem?_map, Option.map_eq_some_iff] at hi
    obtain ⟨u, hu, rfl⟩ := hi
    have hsu : Singly ts i x := by
      obtain ⟨v, hv, hx, hall⟩ := hs
      refine ⟨u, hu, ?_, fun j q hq hxq => hall j (turn true q) (by rw [List.getElem?_map, hq]; rfl) (in_turn.2 hxq)⟩
      rw [List.getElem?_map, hu] at hv
      obtain rfl := Option.some.inj hv
      exact in_turn.1 hx
    obtain ⟨ε, hε, h⟩ := ha.bounds.jump i u x hu hsu
    refine ⟨ε, hε, fun s h0 h1 => ?_⟩
    have e1 : ∀ r : ℚ, shift x r (outward (turn true u)) = shift x (-r) (outward u) := by
      intro r
      show shift x r (outward u.flip) = _
      rw [Cutting.outward_flip]
      simp [shift]
    rw [e1, e1, neg_neg]
    exact ⟨(h s h0 h1).2, not_not_intro (h s h0 h1).1⟩
  · show ts.map (turn true) ≠ []
    intro h0
    rw [List.map_eq_nil_iff] at h0
    have hl := ha.corners.length_eq
    rw [h0] at hl
    exact hne (List.eq_nil_of_length_eq_zero hl)

/-- The region or its complement. -/
def turnRegion (k : Bool) (a : Region P3 D) : Region P3 D := if k then Spec.complement a else a

theorem solid_turn {ts : List (Tri P3)} {ψ : P3 → Prop} (l : Bool) (ha : IsSolid a ts ψ) (hk : a.kind = .boundaryDefined) : IsSolid (turnRegion l a) (ts.map (turn l)) (turnSet l ψ) ∧ (turnRegion l a).kind = .boundaryDefined ∧ (turnRegion l a).boundary.data = a.boundary.data := by
  cases l
  · refine ⟨?_, hk, rfl⟩
    rw [show ts.map (turn false) = ts from (List.map_congr_left fun _ _ => rfl).trans (List.map_id _)]
    exact ha
  · have e : Spec.complement a = ⟨.boundaryDefined, flipSoup a.boundary⟩ := by unfold Spec.complement; rw [hk]
    refine ⟨solid_complement ha hk, ?_, ?_⟩
    · show (Spec.complement a).kind = _
      rw [e]
    · show (Spec.complement a).boundary.data = _
      rw [e]
      rfl

/-- **Operations on complements.** Operations on two solids, some of which are replaced by their complements, give regions of the same kind, with the same faces and the same data, as the operations on the solids that do the same: the difference gives what the intersection with the complement does. -/
theorem C116_complements (ha : IsSolid a (orig true) (χ true)) (hb : IsSolid b (orig false) (χ false)) (hka : a.kind = .boundaryDefined) (hkb : b.kind = .boundaryDefined) (k : Bool → Bool) (hE : E.Valid orig) (hF : F.Valid fun x => (orig x).map (turn (k x))) (hg : NoFourVertices orig) (hman : ManifoldWhereCoinciding orig)
    (hE' : E'.Valid orig) (hF' : F'.Valid fun x => (orig x).map (turn (k x))) (h : Mix.Built E' (Gives E) a b bb w) (h' : Mix.Built F' (Gives F) (turnRegion (k true) a) (turnRegion (k false) b) bb' w') (hop : ∀ x y, truth op' x y = truth op (x ^^ k true) (y ^^ k false)) (pf : Bool) :
    ∃ c c', bb.run op pf = ok c ∧ bb'.run op' pf = ok c' ∧ c.kind = c'.kind ∧ SameFaces c.boundary c'.boundary := by
  obtain ⟨sa, ka, da⟩ := solid_turn (k true) ha hka
  obtain ⟨sb, kb, db⟩ := solid_turn (k false) hb hkb
  exact C116_turned (orig' := fun x => (orig x).map (turn (k x))) ha hb sa sb (fun _ => rfl) da db hka hkb ka kb hE hF hg hman hE' hF' h h' hop pf

/-- **De Morgan.** The operation on two solids gives a region of the same kind, with the same faces and the same data, as the complement of the region that the operator with the complementary values gives for the solids some of which are replaced by their complements: the union is the complement of the intersection of the complements. -/
theorem C116_de_morgan (ha : IsSolid a (orig true) (χ true)) (hb : IsSolid b (orig false) (χ false)) (hka : a.kind = .boundaryDefined) (hkb : b.kind = .boundaryDefined) (k : Bool → Bool) (hE : E.Valid orig) (hF : F.Valid fun x => (orig x).map (turn (k x))) (hg : NoFourVertices orig) (hman : ManifoldWhereCoinciding orig)
    (hE' : E'.Valid orig) (hF' : F'.Valid fun x => (orig x).map (turn (k x))) (h : Mix.Built E' (Gives E) a b bb w) (h' : Mix.Built F' (Gives F) (turnRegion (k true) a) (turnRegion (k false) b) bb' w') (hop : ∀ x y, truth op' x y = !truth op (x ^^ k true) (y ^^ k false)) (pf : Bool) :
    ∃ c c', bb.run op pf = ok c ∧ bb'.run op' pf = ok c' ∧ c.kind = (Spec.complement c').kind ∧ SameFaces c.boundary (Spec.complement c').boundary := by
  have hop' : ∀ x y, truth (Spec.Op.compl op') x y = truth op (x ^^ k true) (y ^^ k false) := by
    intro x y
    have e : truth (Spec.Op.compl op') x y = !truth op' x y := by cases op' <;> cases x <;> cases y <;> rfl
    rw [e, hop, Bool.not_not]
  obtain ⟨c, c', hr, hr', hk, hs⟩ := C116_complements ha hb hka hkb k hE hF hg hman hE' hF' h h' hop' pf
  rw [C08_complement] at hr'
  cases e : bb'.run op' pf with
  | ok c'' =>
    rw [e] at hr'
    cases hr'
    exact ⟨c, c'', hr, rfl, hk, hs⟩
  | exn m => rw [e] at hr'; cases hr'
  | ub m => rw [e] at hr'; cases hr'

/-! ## Examples -/

/-- The difference of two tetrahedra with a common face, and the intersection of the first with the complement of the second. -/
example {E F : Env} {E' F' : Mix.Env} (hE : E.Valid doubleOrig) (hE' : E'.Valid doubleOrig) (hF : F.Valid fun x => (doubleOrig x).map (turn !x)) (hF' : F'.Valid fun x => (doubleOrig x).map (turn !x)) {bb bb' : Builder P3 Unit} {w w' : Global.Warnings}
    (h : Mix.Built E' (Gives E) (doubleSolid true) (doubleSolid false) bb w) (h' : Mix.Built F' (Gives F) (doubleSolid true) (Spec.complement (doubleSolid false)) bb' w') :
    ∃ c c', bb.run .difference true = ok c ∧ bb'.run .intersection true = ok c' ∧ c.kind = c'.kind ∧ SameFaces c.boundary c'.boundary :=
  C116_complements (χ := doubleSets) (doubleSolid_is true) (doubleSolid_is false) rfl rfl (fun x => !x) hE hF (conforming_vertices double_complex) double_manifold hE' hF' h h' (by decide) true

/-- De Morgan: the union is the operation D, "not both", on the complements. -/
example : ∀ x y, truth .D x y = truth .union (x ^^ true) (y ^^ true) := by decide

/-- The union of two tetrahedra with a common face is the complement of the intersection of their complements. -/
example {E F : Env} {E' F' : Mix.Env} (hE : E.Valid doubleOrig) (hE' : E'.Valid doubleOrig) (hF : F.Valid fun x => (doubleOrig x).map (turn true)) (hF' : F'.Valid fun x => (doubleOrig x).map (turn true)) {bb bb' : Builder P3 Unit} {w w' : Global.Warnings}
    (h : Mix.Built E' (Gives E) (doubleSolid true) (doubleSolid false) bb w) (h' : Mix.Built F' (Gives F) (Spec.complement (doubleSolid true)) (Spec.complement (doubleSolid false)) bb' w') :
    ∃ c c', bb.run .union true = ok c ∧ bb'.run .intersection true = ok c' ∧ c.kind = (Spec.complement c').kind ∧ SameFaces c.boundary (Spec.complement c').boundary :=
  C116_de_morgan (χ := doubleSets) (doubleSolid_is true) (doubleSolid_is false) rfl rfl (fun _ => true) hE hF (conforming_vertices double_complex) double_manifold hE' hF' h h' (by decide) true

/-- The union is not the intersection of the complements. -/
example : ¬ ∀ x y, truth .intersection x y = truth .union (x ^^ true) (y ^^ true) := by decide

/-- The complement of a tetrahedron has its faces inverted. -/
example : IsSolid (Spec.complement (doubleSolid true)) ((doubleOrig true).map (turn true)) (turnSet true (doubleSets true)) := solid_complement (doubleSolid_is true) rfl

/-! ## The program -/
section
open Kigumi.Spec.Cli (last HasFormat)
open Kigumi.Spec.Files (Accepted)
open Kigumi.IO (Host Numbers Pt RawRegion Byte)
open Kigumi.Cli (World Name Options main)
open Kigumi.Program

/-- **Files with complements.** In a second run of the program, some operands are the complements of those of the first, and the operation is the one that does the same for them. If both runs end with status 0 and no four vertices of a face are on a circle,
whoever reads the two `.kigumi` files successfully gets regions of the same kind with the same faces. -/
theorem C116_program {h h' : Host} {N : Numbers} {E F : Cli.Env Byte Pt Unit (Builder P3 Unit)} (hE : Library h N E) (hF : Library h' N F) {rest rest' : List Name} {w w' u u' : World Byte} (hm : main E ("boolean".toList :: rest) w = (w', ok 0))
    (hm' : main F ("boolean".toList :: rest') u = (u', ok 0)) {o o' : Options} (ho : E.parseBoolean rest = ok o) (ho' : F.parseBoolean rest' = ok o') {a b a' b' : Region Pt Unit} (ha : Cli.Reads E w.files o.first a) (hb : Cli.Reads E w.files o.second b)
    (ha' : Cli.Reads F u.files o'.first a') (hb' : Cli.Reads F u.files o'.second b') (k : Bool → Bool) (hpa : places a' = turnRegion (k true) (places a)) (hpb : places b' = turnRegion (k false) (places b)) (hka : (places a).kind = .boundaryDefined) (hkb : (places b).kind = .boundaryDefined)
    (hsa : IsSolid (places a) (orig true) (χ true)) (hsb : IsSolid (places b) (orig false) (χ false)) (hg : NoFourVertices orig) (hman : ManifoldWhereCoinciding orig) {g g' : Name} {f f' : Bool → Bool → Bool} (hl : last o g = some f) (hl' : last o' g' = some f')
    (hff : ∀ x y, f' x y = f (x ^^ k true) (y ^^ k false)) (hf : HasFormat g .kigumi) (hf' : HasFormat g' .kigumi) {c c' : List Byte} (hc : w'.files g = some c) (hc' : u'.files g' = some c') {raw raw' : RawRegion Unit} (hr : Accepted N c raw) (hr' : Accepted N c' raw') :
    (regionOf raw).kind = (regionOf raw').kind ∧ SameFaces (places (regionOf raw)).boundary (places (regionOf raw')).boundary := by
  have ht : Turned k orig fun x => (orig x).map (turn (k x)) := fun _ => rfl
  obtain ⟨sa, -, -⟩ := solid_turn (k true) hsa hka
  obtain ⟨sb, -, -⟩ := solid_turn (k false) hsb hkb
  obtain ⟨op, bb, v, r, e, hB, hrun, hread⟩ := written_run hE hm ho ha hb hsa hsb (noFour_of_vertices hg) hman hl hf hc
  obtain ⟨op', bb', v', r', e', hB', hrun', hread'⟩ := written_run (orig := fun x => (orig x).map (turn (k x))) (χ := fun x => turnSet (k x) (χ x)) hF hm' ho' ha' hb' (hpa ▸ sa) (hpb ▸ sb) (noFour_of_vertices (noFour_turn ht hg)) (manifold_turn ht hman) hl' hf' hc'
  rw [hpa, hpb] at hB'
  obtain ⟨E0, E1, hv, hbb⟩ := hB
  obtain ⟨F0, F1, hv', hbb'⟩ := hB'
  obtain ⟨v1, v2⟩ := hv orig hsa.corners hsb.corners
  obtain ⟨v1', v2'⟩ := hv' (fun x => (orig x).map (turn (k x))) sa.corners sb.corners
  obtain ⟨s, s', hs, hs', hk, hsame⟩ := C116_complements (op := op) (op' := op') hsa hsb hka hkb k v1 v1' hg hman v2 v2' hbb hbb' (by subst e e'; exact hff) true
  rw [hrun] at hs; rw [hrun'] at hs'
  cases hs; cases hs'
  obtain rfl := hread raw hr
  obtain rfl := hread' raw' hr'
  exact ⟨hk, hsame⟩

end

end Kigumi.Props

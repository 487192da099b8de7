import Verif.Props.Reproducible
import Verif.Props.Program

/-! # C113: the files that the program writes are reproducible -/
namespace Kigumi.Props
open Kigumi Outcome Geo Spec.Triangles Spec.Side FaceFace Space
open Kigumi.Spec (HasCorners truth)
open Kigumi.Spec.Cli (last HasFormat)
open Kigumi.Spec.Files (Accepted)
open Kigumi.IO (Host Numbers Pt RawRegion Byte nullCodec)
open Kigumi.Cli (World Name Options main)
open Kigumi.Program
variable {h h' : Host} {N : Numbers} {E F : Cli.Env Byte Pt Unit (Builder P3 Unit)} {orig : Bool → List (Tri P3)} {χ : Bool → P3 → Prop}

theorem truth_inj {op op' : Op} (e : truth op = truth op') : op = op' := by
  have h1 := congrFun (congrFun e false) false
  have h2 := congrFun (congrFun e false) true
  have h3 := congrFun (congrFun e true) false
  have h4 := congrFun (congrFun e true) true
  clear e
  revert h1 h2 h3 h4
  cases op <;> cases op' <;> decide

/-- What is read from a file that a run has written is what a builder has returned. -/
theorem written_run (hE : Library h N E) {rest : List Name} {w w' : World Byte} (hm : main E ("boolean".toList :: rest) w = (w', ok 0)) {o : Options} (ho : E.parseBoolean rest = ok o) {a b : Region Pt Unit}
    (ha : Cli.Reads E w.files o.first a) (hb : Cli.Reads E w.files o.second b) (hsa : IsSolid (places a) (orig true) (χ true)) (hsb : IsSolid (places b) (orig false) (χ false)) (hg : NoFourOnCircle orig) (hman : ManifoldWhereCoinciding orig)
    {g : Name} {f : Bool → Bool → Bool} (hl : last o g = some f) (hf : HasFormat g .kigumi) {c : List Byte} (hc : w'.files g = some c) :
    ∃ op bb v r, f = truth op ∧ Builds (places a) (places b) bb v ∧ bb.run op true = ok r ∧ ∀ raw, Accepted N c raw → places (regionOf raw) = r := by
  obtain ⟨o', a', b', bb, v, h1, h2, h3, h4, h5, -⟩ := C53_boolean_files E rest w w' hm
  rw [ho] at h1; cases h1
  obtain rfl := Cli.reads_unique ha h2
  obtain rfl := Cli.reads_unique hb h3
  have hB := hE.build _ _ _ _ h4
  have h5 := h5 g
  rw [hl] at h5
  obtain ⟨op, r, ps, rfl, h8, h9, h10, h11⟩ := h5
  refine ⟨op, bb, v, places r, rfl, hB, by have := hE.eval bb op; rw [h8] at this; exact this.symm, fun raw hraw => ?_⟩
  obtain ⟨E0, E', hv, hbb⟩ := hB
  obtain ⟨v1, v2⟩ := hv orig hsa.corners hsb.corners
  obtain ⟨-, r', hr', hd⟩ := C73_boolean hsa hsb v1 hg hman v2 hbb op true
  have he := hE.eval bb op
  rw [h8, hr'] at he
  replace he : places r = r' := by injection he
  subst he
  obtain ⟨_, _, hs, -⟩ := hd
  have hx := hE.exact bb op r h8
  have hps : ps = E.kigumiPieces r := Cli.prints_unique h9 (.inl ⟨hf, rfl⟩)
  subst hps
  obtain ⟨hw1, hw2⟩ := hE.write r
  rw [h10] at hw2
  cases hbs : IO.writeRegion h N nullCodec (rawOf r) with
  | exn m => rw [hbs] at hw2; cases hw2
  | ub m => rw [hbs] at hw2; cases hw2
  | ok bs =>
    rw [h11, hw1 bs hbs] at hc
    obtain rfl : bs.take (E.room g) = c := by injection hc
    have hlen : r.boundary.data.length = r.boundary.faces.length := hs.wf.1
    rcases Nat.lt_or_ge (E.room g) bs.length with hlt | hge
    · exact absurd hraw (stored_cut hx hlen hbs hlt raw)
    · rw [List.take_of_length_le hge] at hraw
      obtain ⟨raw', -, h2', h3'⟩ := stored_reads hx hlen hbs
      obtain ⟨k, buf, st, e⟩ := hraw
      obtain ⟨st', e'⟩ := h3' k [] buf
      rw [List.append_nil, e] at e'
      cases e'
      exact h2'

/-- **The files that the program writes are reproducible.** Two runs of the program, perhaps on different hosts, with other threads, other names of files and on other devices, have read regions with the same places, and have been asked for the same operation. If both end with status 0
and no four vertices of a face are on a circle, whoever reads the two `.kigumi` files successfully gets regions of the same kind with the same faces. -/
theorem C113_program (hE : Library h N E) (hF : Library h' N F) {rest rest' : List Name} {w w' u u' : World Byte} (hm : main E ("boolean".toList :: rest) w = (w', ok 0)) (hm' : main F ("boolean".toList :: rest') u = (u', ok 0)) {o o' : Options}
    (ho : E.parseBoolean rest = ok o) (ho' : F.parseBoolean rest' = ok o') {a b a' b' : Region Pt Unit} (ha : Cli.Reads E w.files o.first a) (hb : Cli.Reads E w.files o.second b) (ha' : Cli.Reads F u.files o'.first a') (hb' : Cli.Reads F u.files o'.second b')
    (hpa : places a' = places a) (hpb : places b' = places b) (hsa : IsSolid (places a) (orig true) (χ true)) (hsb : IsSolid (places b) (orig false) (χ false)) (hg : NoFourVertices orig) (hman : ManifoldWhereCoinciding orig)
    {g g' : Name} {f : Bool → Bool → Bool} (hl : last o g = some f) (hl' : last o' g' = some f) (hf : HasFormat g .kigumi) (hf' : HasFormat g' .kigumi) {c c' : List Byte} (hc : w'.files g = some c) (hc' : u'.files g' = some c')
    {raw raw' : RawRegion Unit} (hr : Accepted N c raw) (hr' : Accepted N c' raw') :
    (regionOf raw).kind = (regionOf raw').kind ∧ SameFaces (places (regionOf raw)).boundary (places (regionOf raw')).boundary := by
  have hg' := noFour_of_vertices hg
  obtain ⟨op, bb, v, r, e, hB, hrun, hread⟩ := written_run hE hm ho ha hb hsa hsb hg' hman hl hf hc
  obtain ⟨op', bb', v', r', e', hB', hrun', hread'⟩ := written_run hF hm' ho' ha' hb' (hpa ▸ hsa) (hpb ▸ hsb) hg' hman hl' hf' hc'
  obtain rfl := truth_inj (e.symm.trans e')
  rw [hpa, hpb] at hB'
  obtain ⟨E0, E1, hv, hbb⟩ := hB
  obtain ⟨F0, F1, hv', hbb'⟩ := hB'
  obtain ⟨v1, v2⟩ := hv orig hsa.corners hsb.corners
  obtain ⟨v1', v2'⟩ := hv' orig hsa.corners hsb.corners
  obtain ⟨s, s', hs, hs', hk, hsame⟩ := C113_result hsa hsb v1 v1' hg hman v2 v2' hbb hbb' op true
  rw [hrun] at hs; rw [hrun'] at hs'
  cases hs; cases hs'
  obtain rfl := hread raw hr
  obtain rfl := hread' raw' hr'
  exact ⟨hk, hsame⟩

namespace Complement

/-- The tetrahedron as it is read from its file. -/
theorem reads_solid {h k : Host} {room : Nat} {bs : List Byte} (hbs : IO.writeRegion k N nullCodec (rawOf (spread solid)) = ok bs) {w : World Byte} (hw : w.files "block.kigumi".toList = some bs) :
    ∃ a, Cli.Reads (someLibrary h N room (ok options)) w.files options.second a ∧ places a = solid := by
  obtain ⟨raw, -, hraw, hread⟩ := stored_reads (spread_exact N solid) rfl hbs
  obtain ⟨st, e⟩ := hread h [] []
  refine ⟨regionOf raw, .inr (.inr ⟨bs, rfl, hw, .inl ⟨⟨"block".toList, by decide⟩, ?_⟩⟩), hraw.trans (places_spread solid)⟩
  rw [someLibrary_read]
  rw [List.append_nil] at e
  rw [e]
  rfl

/-- The file of a tetrahedron is taken to two machines, and both make a file of the complement. The files can be read, and they have the same faces. -/
example (h h' k : Host) (N : Numbers) : ∃ (room room' : Nat) (bs : List Byte), IO.writeRegion k N nullCodec (rawOf (spread solid)) = ok bs ∧ ∀ w u : World Byte, w.files "block.kigumi".toList = some bs → u.files "block.kigumi".toList = some bs →
    ∃ w' u' c c', main (someLibrary h N room (ok options)) ["boolean".toList] w = (w', ok 0) ∧ main (someLibrary h' N room' (ok options)) ["boolean".toList] u = (u', ok 0) ∧
      w'.files "rest.kigumi".toList = some c ∧ u'.files "rest.kigumi".toList = some c' ∧ (∃ raw, Accepted N c raw) ∧ (∃ raw, Accepted N c' raw) ∧
      ∀ raw raw', Accepted N c raw → Accepted N c' raw' → SameFaces (places (regionOf raw)).boundary (places (regionOf raw')).boundary := by
  obtain ⟨room, bs, hbs, H⟩ := complement h k N
  obtain ⟨room', bs', hbs', H'⟩ := complement h' k N
  obtain rfl : bs = bs' := by rw [hbs] at hbs'; injection hbs'
  refine ⟨room, room', bs, hbs, fun w u hw hu => ?_⟩
  obtain ⟨w', hm, -, -, c, hc, hh⟩ := H w hw
  obtain ⟨u', hm', -, -, c', hc', hh'⟩ := H' u hu
  obtain ⟨raw0, st0, e0⟩ := hh.1 h []
  obtain ⟨raw1, st1, e1⟩ := hh'.1 h []
  refine ⟨w', u', c, c', hm, hm', hc, hc', ⟨raw0, h, [], st0, e0⟩, ⟨raw1, h, [], st1, e1⟩, fun raw raw' hr hr' => ?_⟩
  obtain ⟨b, hb, pb⟩ := reads_solid (h := h) (room := room) hbs hw
  obtain ⟨b', hb', pb'⟩ := reads_solid (h := h') (room := room') hbs hu
  have hno : NoOverlap (Corefine.both [] block) := fun t ht => absurd ht (by simp [Corefine.both])
  have hsb : IsSolid (places b) block (Within block) := by
    rw [pb]
    exact simplex_is (by decide +kernel)
  have hl : last options "rest.kigumi".toList = some fun a b => a != b := if_pos rfl
  exact (C113_program (rest := []) (rest' := []) (orig := Corefine.both [] block) (χ := fun c => if c then fun _ => True else Within block) (C87_consistent h N room (ok options)) (C87_consistent h' N room' (ok options)) hm hm' rfl rfl
    (.inr (.inl ⟨rfl, rfl⟩)) hb (.inr (.inl ⟨rfl, rfl⟩)) hb' rfl (pb'.trans pb.symm) full_is hsb (conforming_vertices hsb.complex) (Crossing.manifold hno full_is.complex.proper) hl hl ⟨"rest".toList, by decide⟩ ⟨"rest".toList, by decide⟩ hc hc' hr hr').2

end Complement

/-- The names of the operators decide what is asked for. -/
example : truth .D ≠ truth .E := fun e => by cases truth_inj e

end Kigumi.Props

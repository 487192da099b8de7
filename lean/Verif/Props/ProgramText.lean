import Verif.Spec.TextFiles
import Verif.Props.Written
import Verif.Props.PlyFile
import Verif.Props.Program

/-! # C95: the program with text files, from files to files -/
namespace Kigumi.Props
open Kigumi Outcome Geo Spec.Triangles Spec.Side FaceFace Space
open Kigumi.Spec (HasCorners truth onSets RegionInv Expr)
open Kigumi.Spec.Cli (Wanted last HasFormat progressText)
open Kigumi.Spec.Files (Accepted Readable Says HoldsSet Combined IsMesh placeOf meshRegion StandsFor Tells)
open Kigumi.Corefine (Gives construct Operands both)
open Kigumi.IO (Host Numbers Pt RawRegion Byte nullCodec)
open Kigumi.Cli (World Name Options main Format)
open Kigumi.Program
variable {F : Type} {h : Host} {N : Numbers} {M : Text.Doubles F} {bits : F → Nat} {dbl : Pt → Option (Text.P3 F)} {E : Cli.Env Byte Pt Unit (Builder P3 Unit)}

theorem isMesh_text {fmt : Format} {t : List Char} {ps : List (Text.P3 F)} {fs : List (List Nat)} (hm : IsMesh M fmt t ps fs) : fmt ≠ .kigumi := by
  rintro rfl
  exact hm

/-- A file of a format is read as its points and the triangles of its polygons. -/
theorem isMesh_reads {fmt : Format} {t : List Char} {ps : List (Text.P3 F)} {fs : List (List Nat)} (hm : IsMesh M fmt t ps fs) :
    ∃ k, readText M fmt t = (true, ⟨ps, fs.flatMap Text.fan, List.replicate (fs.flatMap Text.fan).length ()⟩, k) := by
  cases fmt with
  | kigumi => exact absurd hm id
  | obj => exact C89_obj M () hm.1 hm.2 Soup.empty
  | off => exact C89_off M () hm Soup.empty
  | ply => exact C88_read M () hm Soup.empty

theorem places_fromText (ps : List (Text.P3 F)) (fs : List (List Nat)) :
    places ⟨.boundaryDefined, fromText N bits ⟨ps, fs.flatMap Text.fan, List.replicate (fs.flatMap Text.fan).length ()⟩⟩ = meshRegion N bits ps fs := by
  unfold places fromText meshRegion
  simp only [List.map_map]
  rfl

/-- A file of a format has one list of points and one list of triangles. -/
theorem isMesh_unique {fmt : Format} {t : List Char} {ps ps' : List (Text.P3 F)} {fs fs' : List (List Nat)} (h1 : IsMesh M fmt t ps fs) (h2 : IsMesh M fmt t ps' fs') : ps = ps' ∧ fs.flatMap Text.fan = fs'.flatMap Text.fan := by
  obtain ⟨k1, e1⟩ := isMesh_reads h1
  obtain ⟨k2, e2⟩ := isMesh_reads h2
  rw [e1] at e2
  injection e2 with _ e2
  injection e2 with e2 _
  injection e2 with e3 e4 _
  exact ⟨e3, e4⟩

/-- **Text files are operands.** The program reads a file that has points and polygons of at least three vertices as the region with these points and the triangles of the polygons; a file without them is not an operand. -/
theorem C95_operand (hT : TextLibrary N M bits dbl E) {files : Name → Option (List Byte)} {n : Name} {fmt : Format} {c : List Byte} {ps : List (Text.P3 F)} {fs : List (List Nat)} (hf : HasFormat n fmt) (hr : E.readable n = true) (hc : files n = some c)
    (hm : IsMesh M fmt (chars c) ps fs) : ((∃ f ∈ fs, 3 ≤ f.length) → ∃ a, Cli.Reads E files n a ∧ places a = meshRegion N bits ps fs) ∧ ((∀ f ∈ fs, f.length < 3) → ∀ a, ¬ Cli.Reads E files n a) := by
  have hk := isMesh_text hm
  obtain ⟨k, e⟩ := isMesh_reads hm
  have he := hT.read fmt c _ k hk e
  refine ⟨?_, ?_⟩
  · rintro ⟨f, hf1, hf2⟩
    refine ⟨_, .inr (.inr ⟨c, hr, hc, .inr ⟨fmt, _, hk, hf, he, ?_, rfl⟩⟩), places_fromText ps fs⟩
    intro h0
    have h0 : fs.flatMap Text.fan = [] := h0
    rw [List.flatMap_eq_nil_iff] at h0
    have := h0 f hf1
    match f, hf2 with
    | a :: b :: d :: r, _ => simp [Text.fan] at this
  · intro hfs a ha
    rcases ha with ⟨hn, -⟩ | ⟨hn, -⟩ | ⟨c', -, hc', ⟨hn, -⟩ | ⟨fmt', s, -, hn, hs, hne, -⟩⟩
    · exact (Cli.format_not_empty hf).1 hn
    · exact (Cli.format_not_empty hf).2 hn
    · exact hk (Cli.format_unique hf hn)
    · rw [hc] at hc'; cases hc'
      obtain rfl := Cli.format_unique hf hn
      rw [he] at hs
      injection hs with hs
      injection hs with hs
      apply hne
      rw [← hs]
      show fs.flatMap Text.fan = []
      rw [List.flatMap_eq_nil_iff]
      intro f hf
      have := hfs f hf
      match f, this with
      | [], _ => rfl
      | [_], _ => rfl
      | [_, _], _ => rfl

/-- The program takes an argument for what it stands for. -/
theorem standsFor_reads (hE : Library h N E) (hT : TextLibrary N M bits dbl E) {files : Name → Option (List Byte)} {n : Name} {r : Region P3 Unit} (hs : StandsFor N M bits files n r) {a : Region Pt Unit} (ha : Cli.Reads E files n a) : places a = r := by
  cases hs with
  | empty hn =>
    rcases ha with ⟨-, rfl⟩ | ⟨hn', -⟩ | ⟨c, -, -, ⟨hf, -⟩ | ⟨fmt, s, -, hf, -⟩⟩
    · rfl
    · rw [hn] at hn'; exact absurd hn' (by decide)
    · exact absurd hn (Cli.format_not_empty hf).1
    · exact absurd hn (Cli.format_not_empty hf).1
  | full hn =>
    rcases ha with ⟨hn', -⟩ | ⟨-, rfl⟩ | ⟨c, -, -, ⟨hf, -⟩ | ⟨fmt, s, -, hf, -⟩⟩
    · rw [hn] at hn'; exact absurd hn' (by decide)
    · rfl
    · exact absurd hn (Cli.format_not_empty hf).2
    · exact absurd hn (Cli.format_not_empty hf).2
  | kigumi hf hc hh =>
    rcases ha with ⟨hn, -⟩ | ⟨hn, -⟩ | ⟨c', -, hc', ⟨-, hr⟩ | ⟨fmt, s, hk, hf', -⟩⟩
    · exact absurd hn (Cli.format_not_empty hf).1
    · exact absurd hn (Cli.format_not_empty hf).2
    · rw [hc] at hc'; cases hc'
      obtain ⟨buf, e⟩ := hE.read _
      rw [e] at hr
      obtain ⟨⟨b, raw, st⟩, e', hr⟩ := IO.bind_ok hr
      cases b with
      | false => cases hr
      | true =>
        obtain rfl : regionOf raw = a := by injection hr with hr; injection hr
        exact hh raw ⟨h, buf, st, e'⟩
    · exact absurd (Cli.format_unique hf' hf) hk
  | @text fmt c ps fs hf hc hm =>
    have hk := isMesh_text hm
    obtain ⟨k, e⟩ := isMesh_reads hm
    have he := hT.read fmt c _ k hk e
    rcases ha with ⟨hn, -⟩ | ⟨hn, -⟩ | ⟨c', -, hc', ⟨hn, -⟩ | ⟨fmt', s, -, hn, hs, hne, rfl⟩⟩
    · exact absurd hn (Cli.format_not_empty hf).1
    · exact absurd hn (Cli.format_not_empty hf).2
    · exact absurd (Cli.format_unique hf hn) hk
    · rw [hc] at hc'; cases hc'
      obtain rfl := Cli.format_unique hf hn
      rw [he] at hs
      injection hs with hs
      injection hs with hs
      subst hs
      exact places_fromText ps fs

theorem tells_reads (hE : Library h N E) (hT : TextLibrary N M bits dbl E) {files : Name → Option (List Byte)} {n : Name} {A S : P3 → Prop} (hs : Tells N M bits files n A S) {a : Region Pt Unit} (ha : Cli.Reads E files n a) : Denotes (places a) A S := by
  cases hs with
  | region h1 h2 => exact standsFor_reads hE hT h1 ha ▸ h2
  | stored h1 h2 h3 => exact says_reads hE h1 h2 h3 ha

/-! ## Written files -/

/-- The coordinates are values of doubles. -/
def Held (N : Numbers) (bits : F → Nat) (p : Pt) : Prop := (∃ x, p.x.value = N.val (bits x)) ∧ (∃ y, p.y.value = N.val (bits y)) ∧ ∃ z, p.z.value = N.val (bits z)

/-- What a text file of a mesh is. -/
theorem written_mesh (hM : M.Lawful) (hT : TextLibrary N M bits dbl E) {fmt : Format} (hk : fmt ≠ .kigumi) {s : Soup Pt Unit} (hs : s.WF) (hv : s.points.length < 2 ^ 63) (hn : s.faces.length < 2 ^ 63) {d : Pt → Text.P3 F}
    (hd : ∀ p ∈ s.points, dbl p = some (d p)) : (E.soupPieces fmt s).2 = ok () ∧ IsMesh M fmt (chars (E.soupPieces fmt s).1.flatten) (s.points.map d) (s.faces.map corners3) := by
  obtain ⟨h1, h2⟩ := hT.write fmt s d hk hd
  refine ⟨h2, ?_⟩
  rw [h1]
  have hr : Text.InRange s := fun f hf => ⟨hs.2 f hf _ (by simp [Tri.toList]), hs.2 f hf _ (by simp [Tri.toList]), hs.2 f hf _ (by simp [Tri.toList])⟩
  have hb : Text.Bits64 s := ⟨by omega, by omega, fun f hf => by have := hr f hf; omega⟩
  cases fmt with
  | kigumi => exact absurd rfl hk
  | obj => exact ⟨C94_obj hM d false s hv hr, by rw [List.length_map]; omega⟩
  | off => exact C94_off hM d s hb
  | ply => exact C94_ply hM d s hb

theorem fan_corners3 (l : List (Tri Nat)) : (l.map corners3).flatMap Text.fan = l := by
  induction l with
  | nil => rfl
  | cons f l ih => rw [List.map_cons, List.flatMap_cons, ih]; rfl

/-- A written file stands for the region that was written, if all coordinates are values of doubles. -/
theorem written_region (hT : TextLibrary N M bits dbl E) {r : Region Pt Unit} (hkind : r.kind = .boundaryDefined) (hs : r.boundary.WF) (hh : ∀ p ∈ r.boundary.points, Held N bits p) {d : Pt → Text.P3 F} (hd : ∀ p ∈ r.boundary.points, dbl p = some (d p)) :
    meshRegion N bits (r.boundary.points.map d) (r.boundary.faces.map corners3) = places r := by
  obtain ⟨k, ps, fs, ds⟩ := r
  dsimp only at hkind hs hh hd
  subst hkind
  unfold meshRegion places
  dsimp only
  rw [fan_corners3, List.map_map]
  have h1 : ps.map (placeOf N bits ∘ d) = ps.map place := by
    refine List.map_congr_left fun p hp => ?_
    obtain ⟨a, b, c⟩ := hT.rounds p (d p) (hd p hp)
    obtain ⟨⟨x, hx⟩, ⟨y, hy⟩, ⟨z, hz⟩⟩ := hh p hp
    show (⟨_, _, _⟩ : P3) = ⟨_, _, _⟩
    rw [a x hx, b y hy, c z hz]
  have h2 : List.replicate fs.length () = ds := by
    have : ds.length = fs.length := hs.1
    rw [← this]
    exact (List.eq_replicate_of_mem fun _ _ => rfl).symm
  rw [h1, h2]

/-- The text file `c` is the region `r` with rounded coordinates. -/
structure Rounded (M : Text.Doubles F) (dbl : Pt → Option (Text.P3 F)) (fmt : Format) (c : List Byte) (r : Region Pt Unit) : Prop where
  mesh : ∀ d : Pt → Text.P3 F, r.boundary.points.length < 2 ^ 63 → r.boundary.faces.length < 2 ^ 63 → (∀ p ∈ r.boundary.points, dbl p = some (d p)) → IsMesh M fmt (chars c) (r.boundary.points.map d) (r.boundary.faces.map corners3)

/-- **Boolean operations of files of any formats.** The two arguments stand for solids, in places as general as C73 demands. If the program ends with status 0, it has printed only the lines about its progress, has changed no file that was not asked for, and
* every `.kigumi` file that was asked for is the file of a region which is the set asked for, apart from points of the two given surfaces (C87);
* every text file that was asked for is, as far as the device has taken it, a file of its format with the faces of such a region, and its vertices rounded to doubles. If the vertices are values of doubles and the region has faces, the file stands for this region. -/
theorem C95_boolean (hM : M.Lawful) (hE : Library h N E) (hT : TextLibrary N M bits dbl E) {rest : List Name} {w w' : World Byte} (hm : main E ("boolean".toList :: rest) w = (w', ok 0)) {o : Options} (ho : E.parseBoolean rest = ok o) {r1 r2 : Region P3 Unit}
    (h1 : StandsFor N M bits w.files o.first r1) (h2 : StandsFor N M bits w.files o.second r2) {orig : Bool → List (Tri P3)} {χ : Bool → P3 → Prop} (hsa : IsSolid r1 (orig true) (χ true)) (hsb : IsSolid r2 (orig false) (χ false))
    (hg : NoFourOnCircle orig) (hman : ManifoldWhereCoinciding orig) :
    w'.err = w.err ∧ w'.out = w.out ++ progressText r1 r2 ∧ (∀ g, last o g = none → w'.files g = w.files g) ∧
    (∀ g f, last o g = some f → HasFormat g .kigumi → ∃ bs, HoldsSet N bs (Combined f (χ true) (χ false)) (fun x => Surface (orig true) x ∨ Surface (orig false) x) ∧ w'.files g = some (bs.take (E.room g)) ∧
      (E.room g < bs.length → ∀ raw, ¬ Accepted N (bs.take (E.room g)) raw)) ∧
    ∀ g f fmt, last o g = some f → HasFormat g fmt → fmt ≠ .kigumi → ∃ (r : Region Pt Unit) (bs : List Byte), Denotes (places r) (Combined f (χ true) (χ false)) (fun x => Surface (orig true) x ∨ Surface (orig false) x) ∧ Rounded M dbl fmt bs r ∧
      w'.files g = some (bs.take (E.room g)) ∧
      (r.kind = .boundaryDefined → (∀ p ∈ r.boundary.points, Held N bits p) → r.boundary.points.length < 2 ^ 63 → r.boundary.faces.length < 2 ^ 63 → bs.length ≤ E.room g → StandsFor N M bits w'.files g (places r)) := by
  obtain ⟨o', a, b, bb, v, g1, g2, g3, g4, g5, -⟩ := C53_boolean_files E rest w w' hm
  rw [ho] at g1; cases g1
  obtain rfl := standsFor_reads hE hT h1 g2
  obtain rfl := standsFor_reads hE hT h2 g3
  obtain ⟨k1, k2, k3, k4⟩ := C87_boolean hE hm ho g2 g3 hsa hsb hg hman
  refine ⟨k1, k2, k3, k4, fun g f fmt hl hf hk => ?_⟩
  have := g5 g
  rw [hl] at this
  obtain ⟨op, r, ps, rfl, h8, h9, h10, h11⟩ := this
  obtain ⟨E0, E', hv, hbb⟩ := hE.build _ _ _ _ g4
  obtain ⟨v1, v2⟩ := hv orig hsa.corners hsb.corners
  obtain ⟨-, r', hr', hd⟩ := C73_boolean hsa hsb v1 hg hman v2 hbb op true
  have he := hE.eval bb op
  rw [h8, hr'] at he
  replace he : places r = r' := by injection he
  subst he
  have hps : ps = E.soupPieces fmt r.boundary := Cli.prints_unique h9 (.inr ⟨fmt, hk, hf, rfl⟩)
  subst hps
  have hwf : r.boundary.WF := by
    obtain ⟨_, _, hs, -⟩ := hd
    exact ⟨hs.wf.1, fun f hf => by simpa [places] using hs.wf.2 f hf⟩
  have hround : Rounded M dbl fmt (E.soupPieces fmt r.boundary).1.flatten r := ⟨fun d hv hn hd => (written_mesh hM hT hk hwf hv hn hd).2⟩
  refine ⟨r, (E.soupPieces fmt r.boundary).1.flatten, ?_, hround, h11, fun hkind hh hv hn hroom => ?_⟩
  · have : (Combined (truth op) (χ true) (χ false)) = fun x => x ∈ onSets op {x | χ true x} {x | χ false x} := funext fun x => propext (combined_iff op _ _ x)
    rw [this]; exact hd
  · have hfin : ∀ p : Pt, ∃ d : Text.P3 F, p ∈ r.boundary.points → dbl p = some d := fun p => by
      by_cases hp : p ∈ r.boundary.points
      · obtain ⟨a, b, c⟩ := hh p hp
        obtain ⟨d, hd⟩ := hT.finite p a b c
        exact ⟨d, fun _ => hd⟩
      · exact ⟨(M.zero, M.zero, M.zero), fun h => absurd h hp⟩
    choose d hd' using hfin
    rw [← written_region hT hkind hwf hh (d := d) fun p hp => hd' p hp]
    refine .text hf ?_ (hround.mesh d hv hn fun p hp => hd' p hp)
    rw [h11, List.take_of_length_le hroom]

/-! ## Scripts -/

/-- What an argument tells does not depend on other files. -/
theorem tells_frame {files files' : Name → Option (List Byte)} {n : Name} (hn : files' n = files n) {A S : P3 → Prop} (ht : Tells N M bits files n A S) : Tells N M bits files' n A S := by
  cases ht with
  | stored h1 h2 h3 => exact .stored h1 (hn.trans h2) h3
  | region h1 h2 =>
    refine .region ?_ h2
    cases h1 with
    | empty h1 => exact .empty h1
    | full h1 => exact .full h1
    | kigumi a b c => exact .kigumi a (hn.trans b) c
    | text a b c => exact .text a (hn.trans b) c

/-- The argument stands for the result of an expression. -/
def TellsExpr (N : Numbers) (M : Text.Doubles F) (bits : F → Nat) (tris : Nat → List (Tri P3)) (χ : Nat → P3 → Prop) (files : Name → Option (List Byte)) (n : Name) (e : Expr) : Prop :=
  Tells N M bits files n (fun x => x ∈ e.value fun i => {x | χ i x}) fun x => ∃ i ∈ e.leaves, Surface (tris i) x

/-- **Scripts evaluate expressions of files of any formats** (compare C87). No faces of different operands have a triangle in common. If all runs of a script end with status 0, whoever reads one of its files successfully gets the set that the expression denotes, apart from points
of the surfaces of its operands; and the script prints nothing to standard error. -/
theorem C95_script (hE : Library h N E) (hT : TextLibrary N M bits dbl E) {tris : Nat → List (Tri P3)} {χ : Nat → P3 → Prop} (hno : ∀ i j, i ≠ j → NoOverlap (both (tris i) (tris j))) {w w' : World Byte} {T T' : Name → Option Expr} (hs : Script E w T w' T')
    (h0 : ∀ n e, T n = some e → TellsExpr N M bits tris χ w.files n e) : w'.err = w.err ∧ ∀ n e, T' n = some e → TellsExpr N M bits tris χ w'.files n e := by
  induction hs with
  | nil T => exact ⟨rfl, h0⟩
  | @run w' w'' T T' T'' rest o e1 e2 _ hm ho t1 t2 hdis hT'' ih =>
    obtain ⟨herr, ih⟩ := ih h0
    have s1 := ih _ _ t1
    have s2 := ih _ _ t2
    have hno' : ∀ i ∈ e1.leaves, ∀ j ∈ e2.leaves, NoOverlap (both (tris i) (tris j)) := fun i hi j hj => hno i j fun e => hdis i hi (e ▸ hj)
    obtain ⟨o', a, b, bb, v, g1, ra, rb, -⟩ := C53_boolean_files E rest w' w'' hm
    rw [ho] at g1; cases g1
    obtain ⟨he, -, hframe, hfile⟩ := run_outputs (A := fun x => x ∈ e1.value fun i => {x | χ i x}) (B := fun x => x ∈ e2.value fun i => {x | χ i x}) (S := fun x => ∃ i ∈ e1.leaves ++ e2.leaves, Surface (tris i) x) hE hm ho ra rb fun bb v hB op => by
      obtain ⟨E0, E', hv, hbb⟩ := hB
      exact step_right (A := e1.value fun i => {x | χ i x}) (B := e2.value fun i => {x | χ i x}) hno' (tells_reads hE hT s1 ra) (tells_reads hE hT s2 rb) hv hbb op true
    refine ⟨he.trans herr, fun n e hn => ?_⟩
    rcases hT'' n e hn with ⟨hl, hn'⟩ | ⟨op, hl, hk, rfl⟩
    · exact tells_frame (hframe n hl) (ih n e hn')
    · obtain ⟨bs, hbs, hw, hcut⟩ := hfile n _ hl hk
      have : (Combined (truth op) (fun x => x ∈ e1.value fun i => {x | χ i x}) fun x => x ∈ e2.value fun i => {x | χ i x}) = fun x => x ∈ (Expr.node op true e1 e2).value fun i => {x | χ i x} := funext fun x => propext (combined_iff op _ _ x)
      rw [this] at hbs
      refine .stored hk hw ?_
      by_cases hlt : E.room n < bs.length
      · exact fun raw hr => absurd hr (hcut hlt raw)
      · rw [List.take_of_length_le (by omega)]
        exact hbs.2

/-! ## Conversion -/

/-- The triangles of a polygon have its vertices. -/
theorem fan_mem {f : List Nat} {t : Tri Nat} (ht : t ∈ Text.fan f) {v : Nat} (hv : v ∈ t.toList) : v ∈ f := by
  cases f with
  | nil => simp [Text.fan] at ht
  | cons a r =>
    obtain ⟨⟨b, c⟩, hbc, rfl⟩ := List.mem_map.1 ht
    obtain ⟨h1, h2⟩ := List.of_mem_zip hbc
    simp only [Tri.toList, List.mem_cons, List.not_mem_nil, or_false] at hv
    rcases hv with rfl | rfl | rfl
    · simp
    · exact List.mem_cons_of_mem _ h1
    · exact List.mem_cons_of_mem _ (List.mem_of_mem_tail h2)

/-- **Conversion** writes the region for which the argument stands: a `.kigumi` file stands for the same region, or nobody can read it if the device has not taken all of it; a text file is the region with rounded coordinates, and stands for the same region if rounding changes nothing. -/
theorem C95_convert (hM : M.Lawful) (hE : Library h N E) (hT : TextLibrary N M bits dbl E) {rest : List Name} {w w' : World Byte} (hm : main E ("convert".toList :: rest) w = (w', ok 0)) {i o : Name} (ho : E.parseInOut rest = ok (i, o)) {r : Region P3 Unit}
    (hi : StandsFor N M bits w.files i r) : w'.err = w.err ∧ w'.out = w.out ∧ (∀ g, g ≠ o → w'.files g = w.files g) ∧ ∃ a, Cli.Reads E w.files i a ∧ places a = r ∧
      (HasFormat o .kigumi → (∀ p ∈ a.boundary.points, Exact N p) → a.boundary.data.length = a.boundary.faces.length → StandsFor N M bits w'.files o r ∧ ∀ c, w'.files o = some c → c.length < E.room o → Readable N c) ∧
      ∀ fmt, HasFormat o fmt → fmt ≠ .kigumi → a.boundary.WF → ∃ bs, Rounded M dbl fmt bs a ∧ w'.files o = some (bs.take (E.room o)) ∧
        (a.kind = .boundaryDefined → (∀ p ∈ a.boundary.points, Held N bits p) → a.boundary.points.length < 2 ^ 63 → a.boundary.faces.length < 2 ^ 63 → bs.length ≤ E.room o → StandsFor N M bits w'.files o r) := by
  obtain ⟨i', o', a, h1, h2, ⟨-, qs, h4, h5, -⟩, ⟨ps, h6, h7⟩, h8, h9, h10⟩ := (C53_convert E rest w w').1 hm
  rw [ho] at h1; cases h1
  obtain rfl := Cli.prints_unique h4 h6
  have hpl := standsFor_reads hE hT hi h2
  refine ⟨h9, h10, h8, a, h2, hpl, fun hf hx hd => ?_, fun fmt hf hk hwf => ?_⟩
  · obtain rfl : qs = E.kigumiPieces a := Cli.prints_unique h4 (.inl ⟨hf, rfl⟩)
    obtain ⟨hw1, hw2⟩ := hE.write a
    rw [h5] at hw2
    cases hbs : IO.writeRegion h N nullCodec (rawOf a) with
    | exn m => rw [hbs] at hw2; cases hw2
    | ub m => rw [hbs] at hw2; cases hw2
    | ok bs =>
      rw [hw1 bs hbs] at h7
      obtain ⟨raw, -, hraw, hread⟩ := stored_reads hx hd hbs
      have hall : ∀ raw', Accepted N (bs.take (E.room o)) raw' → places (regionOf raw') = r := by
        intro raw' hr
        by_cases hlt : E.room o < bs.length
        · exact absurd hr (stored_cut hx hd hbs hlt raw')
        · rw [List.take_of_length_le (by omega)] at hr
          obtain ⟨g, buf, st, he⟩ := hr
          obtain ⟨st', e⟩ := hread g [] buf
          rw [List.append_nil, he] at e
          cases e
          exact hraw.trans hpl
      refine ⟨.kigumi hf h7 hall, fun c hc hlt => ?_⟩
      rw [h7] at hc; cases hc
      rw [List.length_take] at hlt
      rw [List.take_of_length_le (by omega)]
      intro g buf
      obtain ⟨st, e⟩ := hread g [] buf
      rw [List.append_nil] at e
      exact ⟨raw, st, e⟩
  · obtain rfl : qs = E.soupPieces fmt a.boundary := Cli.prints_unique h4 (.inr ⟨fmt, hk, hf, rfl⟩)
    have hround : Rounded M dbl fmt (E.soupPieces fmt a.boundary).1.flatten a := ⟨fun d hv hn hd => (written_mesh hM hT hk hwf hv hn hd).2⟩
    refine ⟨_, hround, h7, fun hkind hh hv hn hroom => ?_⟩
    have hfin : ∀ p : Pt, ∃ d : Text.P3 F, p ∈ a.boundary.points → dbl p = some d := fun p => by
      by_cases hp : p ∈ a.boundary.points
      · obtain ⟨a, b, c⟩ := hh p hp
        obtain ⟨d, hd⟩ := hT.finite p a b c
        exact ⟨d, fun _ => hd⟩
      · exact ⟨(M.zero, M.zero, M.zero), fun h => absurd h hp⟩
    choose d hd' using hfin
    rw [← hpl, ← written_region hT hkind hwf hh (d := d) fun p hp => hd' p hp]
    refine .text hf ?_ (hround.mesh d hv hn fun p hp => hd' p hp)
    rw [h7, List.take_of_length_le hroom]

/-- **Conversion of text files** to `.kigumi` files and to text files loses nothing but the way polygons are cut into triangles: the new file stands for the region for which the old one stands. -/
theorem C95_convert_text (hM : M.Lawful) (hbits : ∀ x, bits x < 2 ^ 64) (hE : Library h N E) (hT : TextLibrary N M bits dbl E) {rest : List Name} {w w' : World Byte} (hm : main E ("convert".toList :: rest) w = (w', ok 0)) {i o : Name} (ho : E.parseInOut rest = ok (i, o))
    {fmt : Format} {c : List Byte} {ps : List (Text.P3 F)} {fs : List (List Nat)} (hf : HasFormat i fmt) (hc : w.files i = some c) (hmesh : IsMesh M fmt (chars c) ps fs) :
    (HasFormat o .kigumi → StandsFor N M bits w'.files o (meshRegion N bits ps fs) ∧ ∀ c, w'.files o = some c → c.length < E.room o → Readable N c) ∧
    ∀ fmt', HasFormat o fmt' → fmt' ≠ .kigumi → (∀ f ∈ fs, ∀ i ∈ f, i < ps.length) → ps.length < 2 ^ 63 → (fs.flatMap Text.fan).length < 2 ^ 63 →
      ∃ bs : List Byte, w'.files o = some (bs.take (E.room o)) ∧ (bs.length ≤ E.room o → StandsFor N M bits w'.files o (meshRegion N bits ps fs)) := by
  have hs : StandsFor N M bits w.files i (meshRegion N bits ps fs) := .text hf hc hmesh
  obtain ⟨-, -, -, a, h2, -, h4, h5⟩ := C95_convert hM hE hT hm ho hs
  have hk := isMesh_text hmesh
  obtain ⟨k, e⟩ := isMesh_reads hmesh
  have he := hT.read fmt c _ k hk e
  have ha : a = ⟨.boundaryDefined, fromText N bits ⟨ps, fs.flatMap Text.fan, List.replicate (fs.flatMap Text.fan).length ()⟩⟩ := by
    rcases h2 with ⟨hn, -⟩ | ⟨hn, -⟩ | ⟨c', -, hc', ⟨hn, -⟩ | ⟨fmt', s, -, hn, hs, hne, rfl⟩⟩
    · exact absurd hn (Cli.format_not_empty hf).1
    · exact absurd hn (Cli.format_not_empty hf).2
    · exact absurd (Cli.format_unique hf hn) hk
    · rw [hc] at hc'; cases hc'
      obtain rfl := Cli.format_unique hf hn
      rw [he] at hs
      injection hs with hs
      injection hs with hs
      rw [hs]
  subst ha
  refine ⟨fun hf' => h4 hf' ?_ ?_, fun fmt' hf' hk' hin hv hn => ?_⟩
  · intro p hp x hx b hb
    obtain ⟨q, -, rfl⟩ := List.mem_map.1 hp
    rcases hx with rfl | rfl | rfl <;> cases hb <;> exact ⟨hbits _, rfl⟩
  · simp [fromText]
  · have hwf : (fromText N bits ⟨ps, fs.flatMap Text.fan, List.replicate (fs.flatMap Text.fan).length ()⟩).WF := by
      refine ⟨by simp [fromText], ?_⟩
      intro t ht v hv
      simp only [fromText, List.length_map] at ht ⊢
      obtain ⟨f, hf, ht⟩ := List.mem_flatMap.1 ht
      exact hin f hf v (fan_mem ht hv)
    obtain ⟨bs, -, h6, h7⟩ := h5 fmt' hf' hk' hwf
    refine ⟨bs, h6, h7 rfl ?_ (by simpa [fromText] using hv) (by simpa only [fromText] using hn)⟩
    intro p hp
    obtain ⟨q, -, rfl⟩ := List.mem_map.1 hp
    exact ⟨⟨_, rfl⟩, ⟨_, rfl⟩, ⟨_, rfl⟩⟩

/-! ## An environment -/

/-- Every character is a byte. -/
def Narrow (cs : List Char) : Prop := ∀ c ∈ cs, c.toNat < 256

theorem Narrow.append {a b : List Char} (ha : Narrow a) (hb : Narrow b) : Narrow (a ++ b) := fun c hc => (List.mem_append.1 hc).elim (ha c) (hb c)
theorem Narrow.cons {c : Char} {a : List Char} (hc : c.toNat < 256) (ha : Narrow a) : Narrow (c :: a) := by
  intro x hx
  rcases List.mem_cons.1 hx with rfl | hx
  · exact hc
  · exact ha x hx
theorem Narrow.flatMap {α : Type} {l : List α} {g : α → List Char} (hg : ∀ a, Narrow (g a)) : Narrow (l.flatMap g) := fun c hc => by
  obtain ⟨a, -, h⟩ := List.mem_flatMap.1 hc
  exact hg a c h

theorem narrow_of {s : List Char} (hs : s.all (fun c => decide (c.toNat < 256)) = true) : Narrow s := fun c hc => by simpa using List.all_eq_true.1 hs c hc

theorem narrow_dec (n : Nat) : Narrow (Text.dec n) := fun c hc => by
  have := Text.dec_digits n c hc
  unfold Text.isDigit at this
  simp only [Bool.and_eq_true, decide_eq_true_eq] at this
  have := Char.le_def.1 this.2
  have : c.toNat ≤ 57 := this
  omega

theorem narrow_point {M : Text.Doubles F} (hM : ∀ x, Narrow (M.fmt x)) (p : Text.P3 F) : Narrow (Text.pointText M p) := by
  unfold Text.pointText
  exact ((((hM _).append (.cons (by decide) (hM _))).append (.cons (by decide) (hM _))).append (narrow_of (by decide)))

/-- Text files consist of bytes. -/
theorem narrow_writeText {M : Text.Doubles F} (hM : ∀ x, Narrow (M.fmt x)) (d : Pt → Text.P3 F) (fmt : Format) (s : Soup Pt Unit) : Narrow (writeText M d fmt s) := by
  have hface : ∀ f : Tri Nat, Narrow (Text.faceText f) := fun f => by
    unfold Text.faceText
    exact ((((Narrow.cons (by decide) (.cons (by decide) (narrow_dec _))).append (.cons (by decide) (narrow_dec _))).append (.cons (by decide) (narrow_dec _))).append (narrow_of (by decide)))
  cases fmt with
  | kigumi => exact fun c hc => absurd hc (by simp [writeText])
  | obj =>
    have hi : ∀ i, Narrow (Text.objIndex false s.points.length i) := fun i => narrow_dec _
    exact (Narrow.flatMap fun p => .cons (by decide) (.cons (by decide) (narrow_point hM _))).append (Narrow.flatMap fun f => (((((Narrow.cons (by decide) (.cons (by decide) (hi _))).append (.cons (by decide) (hi _))).append (.cons (by decide) (hi _))).append (narrow_of (by decide)))))
  | off => exact (((((narrow_of (by decide)).append (narrow_dec _)).append (.cons (by decide) (narrow_dec _))).append (narrow_of (by decide))).append (.flatMap fun _ => narrow_point hM _)).append (.flatMap hface)
  | ply => exact ((((((narrow_of (by decide +kernel)).append (narrow_dec _)).append (narrow_of (by decide +kernel))).append (narrow_dec _)).append (narrow_of (by decide +kernel))).append (.flatMap fun _ => narrow_point hM _)).append (.flatMap hface)

/-- The bytes of a text. -/
def bytes (cs : List Char) : List Byte := cs.map fun c => ⟨c.toNat % 256, Nat.mod_lt _ (by decide)⟩

theorem chars_bytes {cs : List Char} (hc : Narrow cs) : chars (bytes cs) = cs := by
  unfold chars bytes
  rw [List.map_map]
  refine (List.map_congr_left fun c hm => ?_).trans (List.map_id cs)
  show Char.ofNat (c.toNat % 256) = c
  rw [Nat.mod_eq_of_lt (hc c hm), Char.ofNat_toNat]

theorem writeText_congr {M : Text.Doubles F} {d d' : Pt → Text.P3 F} (fmt : Format) {s : Soup Pt Unit} (hd : ∀ p ∈ s.points, d p = d' p) : writeText M d fmt s = writeText M d' fmt s := by
  have h1 : s.points.flatMap (fun p => Text.pointText M (d p)) = s.points.flatMap fun p => Text.pointText M (d' p) := by
    rw [List.flatMap_def, List.flatMap_def, List.map_congr_left fun p hp => by rw [hd p hp]]
  have h2 : s.points.flatMap (fun p => 'v' :: ' ' :: Text.pointText M (d p)) = s.points.flatMap fun p => 'v' :: ' ' :: Text.pointText M (d' p) := by
    rw [List.flatMap_def, List.flatMap_def, List.map_congr_left fun p hp => by rw [hd p hp]]
  cases fmt with
  | kigumi => rfl
  | obj => unfold writeText Text.writeObj; dsimp only; rw [h2]
  | off => unfold writeText Text.writeOff; dsimp only; rw [h1]
  | ply => unfold writeText Text.writePly; dsimp only; rw [h1]

/-- An environment with the readers and writers of text files. -/
def withText (N : Numbers) (M : Text.Doubles F) (bits : F → Nat) (dbl : Pt → Option (Text.P3 F)) (inOut : Outcome (Name × Name)) (E : Cli.Env Byte Pt Unit (Builder P3 Unit)) : Cli.Env Byte Pt Unit (Builder P3 Unit) :=
  { E with
    readSoup := fun fmt c => ok (if (readText M fmt (chars c)).1 then some (fromText N bits (readText M fmt (chars c)).2.1) else none)
    soupPieces := fun fmt s => ([bytes (writeText M (fun p => (dbl p).getD (M.zero, M.zero, M.zero)) fmt s)], ok ())
    parseInOut := fun _ => inOut }

/-- Some environment is as these theorems expect. -/
theorem C95_consistent (hE : Library h N E) (hM : ∀ x, Narrow (M.fmt x)) (inOut : Outcome (Name × Name))
    (rounds : ∀ p d, dbl p = some d → (∀ y, p.x.value = N.val (bits y) → N.val (bits d.1) = p.x.value) ∧ (∀ y, p.y.value = N.val (bits y) → N.val (bits d.2.1) = p.y.value) ∧ ∀ y, p.z.value = N.val (bits y) → N.val (bits d.2.2) = p.z.value)
    (finite : ∀ p, (∃ x, p.x.value = N.val (bits x)) → (∃ y, p.y.value = N.val (bits y)) → (∃ z, p.z.value = N.val (bits z)) → ∃ d, dbl p = some d) :
    Library h N (withText N M bits dbl inOut E) ∧ TextLibrary N M bits dbl (withText N M bits dbl inOut E) := by
  refine ⟨⟨hE.read, hE.write, hE.build, hE.eval, hE.exact⟩, ⟨?_, ?_, rounds, finite⟩⟩
  · intro fmt c s k _ he
    show ok (if (readText M fmt (chars c)).1 then some (fromText N bits (readText M fmt (chars c)).2.1) else none) = _
    rw [he]
    rfl
  · intro fmt s d _ hd
    refine ⟨?_, rfl⟩
    show chars [bytes (writeText M (fun p => (dbl p).getD (M.zero, M.zero, M.zero)) fmt s)].flatten = _
    rw [List.flatten_singleton, chars_bytes (narrow_writeText hM _ fmt s)]
    exact writeText_congr fmt fun p hp => by rw [hd p hp]; rfl

/-! ## A conversion -/
namespace Text95

/-- Numbers without fractions. -/
def wholeNumbers : Numbers := ⟨.gmp, fun b => b, fun _ => none⟩

/-- Coordinates that are natural numbers. -/
def natural (q : ℚ) : Option Nat := if q.den = 1 ∧ 0 ≤ q.num then some q.num.toNat else none

theorem natural_cast (n : Nat) : natural (n : ℚ) = some n := by
  unfold natural
  simp

def toNaturals (p : Pt) : Option (Text.P3 Nat) := match natural p.x.value, natural p.y.value, natural p.z.value with
  | some x, some y, some z => some (x, y, z)
  | _, _, _ => none

/-- `kigumi boolean :full: block.off --sym ` and a name -/
def options (out : Name) : Options := ⟨":full:".toList, "block.off".toList, none, none, none, some out⟩

/-- The environment, where files may have `room` bytes. -/
noncomputable def environment (h : Host) (room : Nat) (out : Name) : Cli.Env Byte Pt Unit (Builder P3 Unit) :=
  withText wholeNumbers Text.natDoubles (fun n => n) toNaturals (exn "not used") (someLibrary h wholeNumbers room (ok (options out)))

theorem environment_is (h : Host) (room : Nat) (out : Name) : Library h wholeNumbers (environment h room out) ∧ TextLibrary wholeNumbers Text.natDoubles (fun n => n) toNaturals (environment h room out) := by
  refine C95_consistent (C87_consistent h _ _ _) narrow_dec _ ?_ ?_
  · intro p d hd
    unfold toNaturals at hd
    refine ⟨fun y hy => ?_, fun y hy => ?_, fun y hy => ?_⟩
    all_goals
      change _ = ((y : Nat) : ℚ) at hy
      rw [hy, natural_cast] at hd
      rw [hy]
      split at hd
      · next h1 h2 h3 => cases hd; simp_all [wholeNumbers]
      · cases hd
  · rintro p ⟨x, hx⟩ ⟨y, hy⟩ ⟨z, hz⟩
    refine ⟨(x, y, z), ?_⟩
    unfold toNaturals
    rw [hx, hy, hz, show wholeNumbers.val x = (x : ℚ) from rfl, show wholeNumbers.val y = (y : ℚ) from rfl, show wholeNumbers.val z = (z : ℚ) from rfl, natural_cast, natural_cast, natural_cast]

/-- The tetrahedron of `Complement`. -/
def blockSoup : Soup (Text.P3 Nat) Unit := ⟨[(0, 0, 0), (8, 0, 0), (0, 8, 0), (0, 0, 8)], Complement.solid.boundary.faces, Complement.solid.boundary.data⟩

/-- Its file. -/
def blockFile : List Char := Text.writeOff Text.natDoubles id blockSoup

/-- The complement in a format. -/
def restFile (fmt : Format) : List Char := writeText Text.natDoubles (fun p => (toNaturals p).getD (0, 0, 0)) fmt (spread Complement.inverse).boundary

example : restFile .off = "OFF\n4 4 0\n8 0 0\n0 8 0\n0 0 8\n0 0 0\n3 0 2 1\n3 3 1 2\n3 3 2 0\n3 3 0 1\n".toList := by decide +kernel
example : restFile .obj = "v 8 0 0\nv 0 8 0\nv 0 0 8\nv 0 0 0\nf 1 3 2\nf 4 2 3\nf 4 3 1\nf 4 1 2\n".toList := by decide +kernel

theorem block_mesh : IsMesh Text.natDoubles .off (chars (bytes blockFile)) blockSoup.points (blockSoup.faces.map corners3) := by
  have hn : Narrow blockFile := narrow_of (by decide +kernel)
  rw [chars_bytes hn]
  have := C94_off Text.natDoubles_lawful id blockSoup ⟨by decide, by decide, by decide⟩
  rwa [List.map_id] at this

theorem block_region : meshRegion wholeNumbers (fun n => n) blockSoup.points (blockSoup.faces.map corners3) = Complement.solid := by
  unfold meshRegion
  rw [fan_corners3]
  decide +kernel

/-- What the program does with the file of the tetrahedron. -/
theorem complement (h : Host) (room : Nat) {out : Name} {fmt : Format} (f2 : HasFormat out fmt) (hk : fmt ≠ .kigumi) (w : World Byte) (hw : w.files "block.off".toList = some (bytes blockFile)) :
    ∃ w', main (environment h room out) ["boolean".toList] w = (w', ok 0) ∧ w'.err = w.err ∧ w'.files out = some ((bytes (restFile fmt)).take room) := by
  obtain ⟨hE, hT⟩ := environment_is h room out
  have f1 : HasFormat "block.off".toList .off := ⟨"block".toList, by decide⟩
  obtain ⟨a, ha, hplaces⟩ := (C95_operand hT f1 rfl hw block_mesh).1 ⟨_, List.mem_map_of_mem (by decide : ⟨0, 2, 1⟩ ∈ blockSoup.faces), by decide⟩
  rw [block_region] at hplaces
  have hfull : Cli.Reads (environment h room out) w.files (options out).first Region.fullRegion := .inr (.inl ⟨rfl, rfl⟩)
  have horig : ∀ orig : Bool → List (Tri P3), HasCorners (Region.fullRegion : Region P3 Unit).boundary.points (Region.fullRegion : Region P3 Unit).boundary.faces (orig true) → HasCorners Complement.solid.boundary.points Complement.solid.boundary.faces (orig false) → orig = both [] block := by
    intro orig o1 o2
    funext c
    cases c
    · exact hasCorners_unique o2 (simplex_is (by decide +kernel)).corners
    · exact hasCorners_unique o1 .nil
  have hproper : ∀ c, ∀ t ∈ both [] block c, Proper t := by
    intro c
    cases c
    · exact tetra_proper (by decide +kernel)
    · intro t ht; exact absurd ht (by simp [both])
  obtain ⟨bb0, hbb0, hrun0⟩ := Complement.run_solid
  have hB : Builds (places (Region.fullRegion : Region Pt Unit)) (places a) bb0 .none := by
    rw [hplaces]
    refine ⟨Corefine.exactEnv (both [] block), someEnv (both [] block), fun orig o1 o2 => ?_, ?_⟩
    · rw [horig orig o1 o2]
      exact ⟨C74_consistent _, C70_consistent hproper⟩
    · unfold Mix.Built
      exact ⟨hbb0, rfl⟩
  have hbuild : ∃ x, (environment h room out).build Region.fullRegion a = ok x := by
    unfold environment withText someLibrary
    dsimp only
    rw [dif_pos ⟨(bb0, .none), hB⟩]
    exact ⟨_, rfl⟩
  have hbb : ∀ bb v, (environment h room out).build Region.fullRegion a = ok (bb, v) → bb = bb0 ∧ v = .none := by
    intro bb v hb
    obtain ⟨E0, E', -, hbb⟩ := hE.build _ _ _ _ hb
    rw [hplaces] at hbb
    obtain ⟨hmk, hv⟩ : Builder.make (fun _ _ => exn "not called") (Region.fullRegion : Region P3 Unit) Complement.solid = ok bb ∧ v = .none := hbb
    rw [hbb0] at hmk
    injection hmk with hmk
    exact ⟨hmk.symm, hv⟩
  have hev : (environment h room out).eval bb0 .symmetricDifference = ok (spread Complement.inverse) := by
    show (bb0.run .symmetricDifference true).bind _ = _
    rw [hrun0]
    rfl
  have hpieces : (environment h room out).soupPieces fmt (spread Complement.inverse).boundary = ([bytes (restFile fmt)], ok ()) := by
    rfl
  have hprints : Cli.Prints (environment h room out) out (spread Complement.inverse) ([bytes (restFile fmt)], ok ()) := .inr ⟨fmt, hk, f2, hpieces.symm⟩
  have hwant : ∀ op n, Wanted (options out) (truth op) n → op = .symmetricDifference ∧ n = out := by
    intro op n hn
    have hn := outputs_wanted.2 hn
    simp only [Cli.outputs, options, List.mem_cons, Prod.mk.injEq, reduceCtorEq, and_false, Option.some.injEq, List.not_mem_nil, or_false, false_or] at hn
    exact hn
  obtain ⟨⟨bb, v⟩, hbld⟩ := hbuild
  obtain ⟨rfl, rfl⟩ := hbb bb v hbld
  have hmain : (main (environment h room out) ["boolean".toList] w).2 = ok 0 := by
    rw [C53_boolean_succeeds_iff]
    refine ⟨options out, _, _, _, _, rfl, hfull, ha, hbld, fun op n hn => ?_⟩
    obtain ⟨rfl, rfl⟩ := hwant op n hn
    exact ⟨_, hev, rfl, _, hprints, rfl, rfl⟩
  have hm : main (environment h room out) ["boolean".toList] w = ((main (environment h room out) ["boolean".toList] w).1, ok 0) := by rw [← hmain]
  refine ⟨_, hm, ?_⟩
  obtain ⟨o', a', b', bb', v', g1, g2, g3, g4, g5, -, g7⟩ := C53_boolean_files _ [] w _ hm
  obtain rfl : options out = o' := by injection g1
  obtain rfl := Cli.reads_unique hfull g2
  obtain rfl := Cli.reads_unique ha g3
  rw [hbld] at g4
  cases g4
  refine ⟨by rw [g7]; simp [Global.Warnings.none], ?_⟩
  have g6 := g5 out
  have hlast : last (options out) out = some fun a b => a != b := if_pos rfl
  rw [hlast] at g6
  obtain ⟨op, r, ps, k1, k2, k3, -, k4⟩ := g6
  obtain ⟨rfl, -⟩ := hwant op out (k1 ▸ .sym rfl)
  rw [hev] at k2
  cases k2
  rw [k4, Cli.prints_unique k3 hprints]
  rw [List.flatten_singleton]
  rfl

end Text95

end Kigumi.Props

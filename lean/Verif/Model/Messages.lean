import Verif.Model.ProgramText

/-!
# What the readers of text formats print (include/kigumi/io/obj.h, off.h, ply.h)

The same control flow as in `TextIO`, with the messages. A text is a pair: what goes to `std::cout` and what goes to `std::cerr`.
-/
namespace Kigumi.Text
open Kigumi IS
variable {F D A : Type}

/-- What has been printed: to the standard output, and to the standard error output. -/
abbrev Said := List Char × List Char

def quiet : Said := ([], [])
/-- `std::cout << t << std::endl` -/
def toOut (t : List Char) : Said := (t ++ ['\n'], [])
/-- `std::cerr << t << std::endl` -/
def toErr (t : List Char) : Said := ([], t ++ ['\n'])
/-- One after the other. -/
def also (x y : Said) : Said := (x.1 ++ y.1, x.2 ++ y.2)

/-- A loop over lines that ends when a line is refused, with what is printed for each line. -/
def tellLoop (step : List Char → A → Bool × A) (tell : List Char → A → Said) : List (List Char) → A → Said
  | [], _ => quiet
  | l :: ls, a => also (tell l a) (if (step l a).1 then tellLoop step tell ls (step l a).2 else quiet)

/-- A line of an OBJ file (obj.h:46-87; the messages are in lines 59 and 72). -/
def objTell (N : Doubles F) (line : List Char) (a : Acc F D) : Said :=
  let s := (IS.of line).optHashEof
  if !s.fail then quiet
  else
    let (s, w) := s.clear.readStr
    if w = ['v'] then
      match readPoint N s with
      | none => toErr ("invalid vertex line: ".toList ++ line)
      | some _ => quiet
    else if w = ['f'] then
      if (objIndices a.soup.points.length (s.rest.length + 1) s []).1 then quiet else toErr ("invalid face line: ".toList ++ line)
    else quiet

/-- `read_obj` (obj.h:30-92). -/
def objSays (N : Doubles F) (dflt : D) (is : IS) : Said :=
  if is.fail then quiet else tellLoop (objLine N dflt) (objTell N) is.lines ⟨Soup.empty, 0⟩

/-- A line of an OFF file (off.h:86-166; the messages are in lines 97, 101, 109, 126, 149 and 164). -/
def offTell (N : Doubles F) (line : List Char) (a : Off F D) : Said :=
  let s := (IS.of line).optHashEof
  if !s.fail then quiet
  else
    let s := s.clear
    match a.state with
    | .signature =>
      let (s, bin) := offSignature s
      if s.fail then toErr ("invalid header line: ".toList ++ line) else if bin then toErr "binary OFF is not supported".toList else quiet
    | .numbers =>
      let (s, _) := s.readSize 0
      let (s, _) := s.readSize 0
      if s.fail then toErr ("invalid header line: ".toList ++ line) else quiet
    | .vertices =>
      match readPoint N s with
      | none => toErr ("invalid vertex line: ".toList ++ line)
      | some _ => quiet
    | .faces =>
      let (s, count) := s.readSize 0
      let (s, _) := readIndices count s
      if s.fail then toOut ("invalid face line: ".toList ++ line) else quiet
    | .done => toOut ("unexpected line: ".toList ++ line)

/-- `read_off` (off.h:66-176; line 170). -/
def offSays (N : Doubles F) (dflt : D) (is : IS) : Said :=
  if is.fail then quiet
  else
    let a : Off F D := ⟨.signature, 0, 0, Soup.empty, 0⟩
    also (tellLoop (offLine N dflt) (offTell N) is.lines a)
      (if (offLoop N dflt is.lines a).1 && decide ((offLoop N dflt is.lines a).2.state ≠ .done) then toErr "unexpected end of file".toList else quiet)

/-- A line of the header of a PLY file (ply.h:55-129; the messages are in lines 70, 78, 82, 92, 98, 103, 109, 114 and 122). -/
def plyHeaderTell (line : List Char) (st : PlyState) (els : List Elem) : Said :=
  let bad := toErr ("invalid header line: ".toList ++ line)
  let s := (IS.of line).expectEof
  if !s.fail then quiet
  else
    let (s, w) := s.clear.readStr
    if w = "comment".toList then quiet
    else match st with
      | .signature => if w ≠ "ply".toList then bad else if s.expectEof.fail then bad else quiet
      | .version =>
        if w ≠ "format".toList then bad
        else if (((s.expect "ascii".toList).expect "1.0".toList).expectEof).fail then toErr "unsupported PLY version".toList else quiet
      | .elements =>
        if w = "element".toList then
          let (s, _) := s.readStr
          let (s, _) := s.readSize 0
          if s.expectEof.fail then bad else quiet
        else if w = "property".toList then
          if els = [] then bad
          else
            let (s, type) := s.readStr
            if s.fail then bad
            else if type = "list".toList then
              let (s, _) := s.readStr
              let (s, _) := s.readStr
              let (s, _) := s.readStr
              if s.expectEof.fail then bad else quiet
            else
              let (s, _) := s.readStr
              if s.expectEof.fail then bad else quiet
        else if w = "end_header".toList then quiet
        else bad
      | .body => quiet

/-- The header (ply.h:52-139; line 137). -/
def plyHeaderSays : List (List Char) → PlyState → List Elem → Said
  | [], _, _ => toErr "unexpected end of file".toList
  | l :: ls, st, els => also (plyHeaderTell l st els) (match plyHeaderLine l st els with
    | none => quiet
    | some (st, els) => if st = .body then quiet else plyHeaderSays ls st els)

/-- The message of `find_element` (ply.h:144-146). -/
def noElement (name : List Char) : Said := toErr ("element ".toList ++ name ++ " not found".toList)
/-- The message of `find_property` (ply.h:157-160). -/
def noProperty (name : List Char) (e : Elem) : Said := toErr ("property ".toList ++ name ++ " not found in element ".toList ++ e.name)

/-- The elements and properties needed (ply.h:164-189). -/
def plyPlanSays (els : List Elem) : Said :=
  match (findElement els "vertex".toList).bind fun ve => els[ve]? with
  | none => noElement "vertex".toList
  | some v =>
    if findProperty v ["x".toList] false = none then noProperty "x".toList v
    else if findProperty v ["y".toList] false = none then noProperty "y".toList v
    else if findProperty v ["z".toList] false = none then noProperty "z".toList v
    else match (findElement els "face".toList).bind fun fe => els[fe]? with
      | none => noElement "face".toList
      | some f => if findProperty f ["vertex_index".toList, "vertex_indices".toList] true = none then noProperty "vertex_index".toList f else quiet

/-- A line of the body (ply.h:200-269; the messages are in lines 202, 230 and 256). -/
def plyTell (N : Doubles F) (q : PlyPlan) (line : List Char) (a : List (Nat × Elem) × Acc F D) : Said :=
  match a.1 with
  | [] => toErr ("unexpected line: ".toList ++ line)
  | (i, e) :: _ =>
    if i = q.ve then
      if (plyVertex N q.x q.y q.z 0 e.props (IS.of line) (N.zero, N.zero, N.zero)).1.fail then toErr ("invalid vertex line: ".toList ++ line) else quiet
    else if i = q.fe then
      if (plyFace q.vi 0 e.props (IS.of line) []).1.fail then toErr ("invalid face line: ".toList ++ line) else quiet
    else quiet

/-- The loop over the body, with the line at which it is (ply.h:199-270). -/
def plyStep (N : Doubles F) (dflt : D) (q : PlyPlan) (line : List Char) (a : List (Nat × Elem) × Acc F D) : Bool × List (Nat × Elem) × Acc F D := plyLine N dflt q line a.1 a.2

/-- `read_ply` (ply.h:38-279; line 273). -/
def plySays (N : Doubles F) (dflt : D) (is : IS) : Said :=
  if is.fail then quiet
  else also (plyHeaderSays is.lines .signature []) (match plyHeader is.lines .signature [] with
    | none => quiet
    | some (els, ls) => also (plyPlanSays els) (match plyPlan els with
      | none => quiet
      | some q =>
        let a : List (Nat × Elem) × Acc F D := (advance (number 0 els), ⟨Soup.empty, 0⟩)
        also (tellLoop (plyStep N dflt q) (plyTell N q) ls a)
          (if (plyLoop N dflt q ls a.1 a.2).1 && decide ((plyLoop N dflt q ls a.1 a.2).2.1 ≠ []) then toErr "unexpected end of file".toList else quiet)))

end Kigumi.Text

namespace Kigumi.Program
open Kigumi.Cli (Format)
variable {F : Type}

/-- The readers by format (include/kigumi/Triangle_soup_io.h:14-22). -/
def textSays (M : Text.Doubles F) (fmt : Format) (t : List Char) : Text.Said :=
  match fmt with
  | .kigumi => Text.quiet
  | .obj => Text.objSays M () (Text.IS.of t)
  | .off => Text.offSays M () (Text.IS.of t)
  | .ply => Text.plySays M () (Text.IS.of t)

end Kigumi.Program

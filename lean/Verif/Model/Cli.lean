import Verif.Model.RegionBuilder
import Verif.Model.ClassifyGlobally
/-!
# The command line program (cli/main.cc, cli/boolean_command.cc, cli/convert_command.cc, cli/defects_command.cc, cli/utility.h)

Parameters (`Env`): what the parsers and printers of the formats do (modelled in `TextIO` and `BinaryIO`), which files can be opened, how much a
device takes, when a stream buffer is passed on, the result of Boost.Program_options and of the builder.
-/
namespace Kigumi.Cli
open Outcome
open Global (Warnings)

/-- `std::string` as a sequence of characters. -/
abbrev Name := List Char

/-- The file formats, cli/utility.h:26, include/kigumi/Triangle_soup_io.h:14-22. -/
inductive Format where
  | kigumi | obj | off | ply
  deriving DecidableEq, Repr

/-- The part of the world that the program changes: files by name, and what was printed. -/
structure World (X : Type) where
  files : Name → Option (List X)
  out : List Char
  err : List Char

/-- An imperative computation: what it changed remains when it ends by an exception. -/
def Act (X α : Type) : Type := World X → World X × Outcome α

namespace Act
variable {X α β : Type}
def ret (a : α) : Act X α := fun w => (w, ok a)
def bind (x : Act X α) (f : α → Act X β) : Act X β := fun w =>
  match x w with
  | (w', ok a) => f a w'
  | (w', exn m) => (w', exn m)
  | (w', ub u) => (w', ub u)
/-- A computation without effect. -/
def lift (o : Outcome α) : Act X α := fun w => (w, o)
/-- `std::cerr << s`. -/
def cerr (s : List Char) : Act X Unit := fun w => ({ w with err := w.err ++ s }, ok ())
/-- `std::cout << s`. -/
def cout (s : List Char) : Act X Unit := fun w => ({ w with out := w.out ++ s }, ok ())
/-- `if (c) …`. -/
def when' (c : Bool) (x : Act X Unit) : Act X Unit := if c then x else ret ()
end Act

/-- The six options of the boolean command, cli/boolean_command.cc:39-46. -/
structure Options where
  first : Name
  second : Name
  int : Option Name
  uni : Option Name
  dif : Option Name
  sym : Option Name

/-- The surroundings of the program.
* `readable`, `creatable`: whether `std::ifstream{f}`, `std::ofstream{f}` succeed (an existing file is needed for the first).
* `room f`: how many elements the device keeps for the file.
* `flush n k`: whether a buffer with `n` elements is passed on when `k` more arrive.
* `readSoup`, `readKigumi`: the readers on a stream; `none` is the result `false`.
* `complaint`: what the reader of a text format prints to the standard output and to the standard error output before it returns `false`. All its messages are followed by that
  (io/obj.h:59-60, 72-73, io/off.h:97-171, io/ply.h:70-274); those of io/off.h:149 and 164 go to the standard output. The reader of `.kigumi` files prints nothing.
* `soupPieces`, `kigumiPieces`: what the writers send to the stream, in pieces, and how they end.
* `parseBoolean`, `parseIn`, `parseInOut`: Boost.Program_options with the declared options; `exn` when it throws.
* `build`, `eval`: `Boolean_region_builder` with its warnings and `operator()(op)`.
* `stages`: how many of the lines about the progress have been printed when `build` does not succeed.
* `defects`: the constructor of `Find_defects`, which makes all searches (include/kigumi/Find_defects.h:34-45); its result are the numbers reported by the eight functions, in the order of the command. -/
structure Env (X P D B : Type) where
  readable : Name → Bool
  creatable : Name → Bool
  room : Name → Nat
  flush : Nat → Nat → Bool
  readSoup : Format → List X → Outcome (Option (Soup P D))
  readKigumi : List X → Outcome (Option (Region P D))
  complaint : Format → List X → List Char × List Char
  soupPieces : Format → Soup P D → List (List X) × Outcome Unit
  kigumiPieces : Region P D → List (List X) × Outcome Unit
  parseBoolean : List Name → Outcome Options
  parseIn : List Name → Outcome Name
  parseInOut : List Name → Outcome (Name × Name)
  booleanUsage : List Char
  convertUsage : List Char
  defectsUsage : List Char
  mainUsage : List Char
  build : Region P D → Region P D → Outcome (B × Warnings)
  stages : Region P D → Region P D → Nat
  eval : B → Op → Outcome (Region P D)
  defects : Soup P D → Outcome (Fin 8 → Nat)

variable {X P D B : Type}

/-- `std::string::ends_with`. -/
def endsWith (s suffix : Name) : Bool := suffix.isSuffixOf s

/-- The cascade of include/kigumi/Triangle_soup_io.h:14-22 and 29-37. -/
def soupFormat (f : Name) : Option Format :=
  if endsWith f ".obj".toList then some .obj
  else if endsWith f ".off".toList then some .off
  else if endsWith f ".ply".toList then some .ply
  else none

/-- `std::ifstream ifs{filename}` and the message when it fails, then the reader on the stream: io/obj.h:94-102, io/off.h:178-186, io/ply.h:283-290,
Region_io.h:21-29. `complaint` is what the reader prints when its result is `false`. -/
def readFile {α : Type} (E : Env X P D B) (f : Name) (parse : List X → Outcome (Option α)) (complaint : List X → List Char × List Char) : Act X (Option α) := fun w =>
  match E.readable f, w.files f with
  | true, some c => match parse c with
    | ok none => ((Act.cout (complaint c).1).bind fun _ => (Act.cerr (complaint c).2).bind fun _ => Act.ret none) w
    | o => (w, o)
  | _, _ => (Act.cerr ("failed to open file: ".toList ++ f ++ ['\n'])).bind (fun _ => Act.ret none) w

/-- `read_triangle_soup`, include/kigumi/Triangle_soup_io.h:12-25; `none` is `false`. -/
def readTriangleSoup (E : Env X P D B) (f : Name) : Act X (Option (Soup P D)) :=
  match soupFormat f with
  | some fmt => readFile E f (E.readSoup fmt) (E.complaint fmt)
  | none => (Act.cerr "unsupported file format\n".toList).bind fun _ => Act.ret none

/-- `read_region`, cli/utility.h:11-37; `none` is `false`. -/
def readRegion (E : Env X P D B) (f : Name) : Act X (Option (Region P D)) :=
  if f = ":empty:".toList then Act.ret (some Region.emptyRegion)
  else if f = ":full:".toList then Act.ret (some Region.fullRegion)
  else if endsWith f ".kigumi".toList then readFile E f E.readKigumi fun _ => ([], [])
  else (readTriangleSoup E f).bind fun s => match s with
    | some s => (Act.lift (Region.ofSoup s)).bind fun r => Act.ret (some r)
    | none => Act.ret none

/-- An open `std::ofstream`: what the device holds, the buffer, and whether `badbit` is set. -/
structure OS (X : Type) where
  file : List X
  buf : List X
  bad : Bool

/-- Output of a piece. A stream in an error state ignores it. The buffer is passed on as `E.flush` says; the device keeps at most `E.room` elements and
keeping less than all of the data sets `badbit`. -/
def OS.put (room : Nat) (flush : Nat → Nat → Bool) (s : OS X) (p : List X) : OS X :=
  if s.bad then s
  else if flush s.buf.length p.length then
    { file := (s.file ++ (s.buf ++ p)).take room, buf := [], bad := decide (room < (s.file ++ (s.buf ++ p)).length) }
  else { s with buf := s.buf ++ p }

/-- The destructor of `std::ofstream` passes on the buffer; a failure is not reported to anybody. -/
def OS.close (room : Nat) (s : OS X) : List X := (s.file ++ s.buf).take room

/-- `std::ofstream ofs{filename}` and the message when it fails, the writer on the stream, `return os.good()`, and the destructor:
io/obj.h:136-144, io/off.h:216-224, io/ply.h:327-335, Region_io.h:40-48, and the ends of the stream writers (obj.h:133, off.h:213, ply.h:324,
Region_io.h:36-37). -/
def writeFile (E : Env X P D B) (f : Name) (pieces : List (List X) × Outcome Unit) : Act X Bool := fun w =>
  if E.creatable f then
    let s := pieces.1.foldl (OS.put (E.room f) E.flush) ⟨[], [], false⟩
    ({ w with files := fun g => if g = f then some (s.close (E.room f)) else w.files g }, pieces.2.bind fun _ => ok (!s.bad))
  else (Act.cerr ("failed to open file: ".toList ++ f ++ ['\n'])).bind (fun _ => Act.ret false) w

/-- `write_triangle_soup`, include/kigumi/Triangle_soup_io.h:27-40. -/
def writeTriangleSoup (E : Env X P D B) (f : Name) (s : Soup P D) : Act X Bool :=
  match soupFormat f with
  | some fmt => writeFile E f (E.soupPieces fmt s)
  | none => (Act.cerr "unsupported file format\n".toList).bind fun _ => Act.ret false

/-- `write_region`, cli/utility.h:39-48. -/
def writeRegion (E : Env X P D B) (f : Name) (r : Region P D) : Act X Bool :=
  if endsWith f ".kigumi".toList then writeFile E f (E.kigumiPieces r) else writeTriangleSoup E f r.boundary

/-- `if (!read_region(f, r)) throw std::runtime_error("reading failed: " + f);`, boolean_command.cc:97-105, convert_command.cc:58-61,
defects_command.cc:57-60. -/
def readOrThrow (E : Env X P D B) (f : Name) : Act X (Region P D) :=
  (readRegion E f).bind fun r => match r with
    | some r => Act.ret r
    | none => Act.lift (exn ("reading failed: " ++ String.ofList f))

/-- `if (!write_region(f, r)) throw std::runtime_error("writing failed: " + f);`, boolean_command.cc:129-131, convert_command.cc:62-64. -/
def writeOrThrow (E : Env X P D B) (f : Name) (r : Region P D) : Act X Unit :=
  (writeRegion E f r).bind fun b => if b then Act.ret () else Act.lift (exn ("writing failed: " ++ String.ofList f))

/-- The `try` around the option parser, boolean_command.cc:80-95, convert_command.cc:44-56, defects_command.cc:43-55: usage text and `throw;`. -/
def parseOr {α : Type} (usage : List Char) (o : Outcome α) : Act X α :=
  match o with
  | exn m => (Act.cerr usage).bind fun _ => Act.lift (exn m)
  | o => Act.lift o

def firstWarning : List Char := "warning: the first mesh partially intersects with the second mesh\n".toList
def secondWarning : List Char := "warning: the second mesh partially intersects with the first mesh\n".toList

/-- boolean_command.cc:109-117. -/
def printWarnings (w : Warnings) : Act X Unit :=
  (Act.when' ((w &&& Warnings.first) != .none) (Act.cerr firstWarning)).bind fun _ =>
    Act.when' ((w &&& Warnings.second) != .none) (Act.cerr secondWarning)

/-- The table of outputs, boolean_command.cc:119-124. -/
def outputs (o : Options) : List (Op × Option Name) :=
  [(Op.intersection, o.int), (Op.union, o.uni), (Op.difference, o.dif), (Op.symmetricDifference, o.sym)]

/-- boolean_command.cc:126-133. -/
def writeOutputs (E : Env X P D B) (b : B) : List (Op × Option Name) → Act X Unit
  | [] => Act.ret ()
  | (_, none) :: l => writeOutputs E b l
  | (op, some f) :: l => (Act.lift (E.eval b op)).bind fun r => (writeOrThrow E f r).bind fun _ => writeOutputs E b l

/-- The lines about the progress, include/kigumi/Corefine.h:43, 61, 96, 122 and include/kigumi/Mix.h:34, 54, 69. -/
def progress : List String :=
  ["Finding face pairs...\n", "Finding symbolic intersections...\n", "Constructing intersection points...\n", "Triangulating...\n", "Constructing mixed mesh...\n",
    "Local classification...\n", "Global classification...\n"]

/-- `Boolean_region_builder builder{first, second}`, boolean_command.cc:107. `Mix` is called, and with it `Corefine`, unless an operand is empty or full
(include/kigumi/Boolean_region_builder.h:30-76). -/
def construct (E : Env X P D B) (a b : Region P D) : Act X (B × Warnings) :=
  (Act.when' (!(a.isEmptyOrFull || b.isEmptyOrFull)) (Act.cout (match E.build a b with
    | ok _ => (progress.map String.toList).flatten
    | _ => ((progress.take (E.stages a b)).map String.toList).flatten))).bind fun _ => Act.lift (E.build a b)

/-- `Boolean_command::operator()`, boolean_command.cc:58-134. -/
def booleanCommand (E : Env X P D B) (args : List Name) : Act X Unit :=
  (parseOr E.booleanUsage (E.parseBoolean args)).bind fun o =>
  (readOrThrow E o.first).bind fun a =>
  (readOrThrow E o.second).bind fun b =>
  (construct E a b).bind fun (bb, w) =>
  (printWarnings w).bind fun _ =>
  writeOutputs E bb (outputs o)

/-- `Convert_command::operator()`, convert_command.cc:30-65. -/
def convertCommand (E : Env X P D B) (args : List Name) : Act X Unit :=
  (parseOr E.convertUsage (E.parseInOut args)).bind fun (i, o) =>
  (readOrThrow E i).bind fun r => writeOrThrow E o r

/-- The texts of defects_command.cc:64-102. -/
def defectTexts : List (Fin 8 × String) :=
  [(0, " isolated vertices\n"), (1, " non-manifold vertices\n"), (2, " boundary edges\n"), (3, " inconsistent edges\n"), (4, " non-manifold edges\n"),
    (5, " trivial degenerate faces\n"), (6, " non-trivial degenerate faces\n"), (7, " overlapping faces\n")]

/-- defects_command.cc:64-102, for the numbers `c`. -/
def printDefects (c : Fin 8 → Nat) : List (Fin 8 × String) → Act X Unit
  | [] => Act.ret ()
  | (k, t) :: l => (Act.when' (c k != 0) (Act.cout ((toString (c k)).toList ++ t.toList))).bind fun _ => printDefects c l

/-- `Defects_command::operator()`, defects_command.cc:31-103. -/
def defectsCommand (E : Env X P D B) (args : List Name) : Act X Unit :=
  (parseOr E.defectsUsage (E.parseIn args)).bind fun i =>
  (readOrThrow E i).bind fun r =>
  (Act.lift (E.defects r.boundary)).bind fun c => printDefects c defectTexts

/-- The commands by name, main.cc:14-17, 33-38; boolean_command.cc:52, convert_command.cc:26, defects_command.cc:27. -/
def commands (E : Env X P D B) : List (Name × (List Name → Act X Unit)) :=
  [("boolean".toList, booleanCommand E), ("convert".toList, convertCommand E), ("defects".toList, defectsCommand E)]

/-- The loop of main.cc:33-38. -/
def dispatch (command : Name) (args : List Name) : List (Name × (List Name → Act X Unit)) → Act X Nat
  | [] => (Act.cerr ("error: unknown command: ".toList ++ command ++ ['\n'])).bind fun _ => Act.ret 1
  | (n, c) :: l => if n = command then (c args).bind fun _ => Act.ret 0 else dispatch command args l

/-- The handler of main.cc:42-48. -/
def report (r : World X × Outcome Nat) : World X × Outcome Nat :=
  match r with
  | (w', exn m) => (Act.cerr ("error: ".toList ++ m.toList ++ ['\n'])).bind (fun _ => Act.ret 1) w'
  | r => r

/-- `main`, cli/main.cc:10-49, given the arguments after the program name (`argc ≥ 1`). The result is the exit status. All exceptions of the model are
`std::exception`s. -/
def main (E : Env X P D B) (args : List Name) : Act X Nat := fun w =>
  match args with
  | [] => (Act.cerr E.mainUsage).bind (fun _ => Act.ret 1) w
  | c :: rest => report (dispatch c rest (commands E) w)

/-- `Boolean_region_builder` with its warnings (Boolean_region_builder.h:30-76, 130): `mix` stands for `Mix{}` (line 75), which is reached when neither
operand is empty or full; otherwise `warnings_` keeps its initial value (line 175). -/
def buildWith {P D : Type} (mix : Soup P D → Soup P D → Outcome (Soup P (MixedData D) × Warnings)) (a b : Region P D) :
    Outcome (Builder P D × Warnings) :=
  (Builder.make (fun s t => (mix s t).bind fun m => ok m.1) a b).bind fun bb =>
    if a.isEmptyOrFull || b.isEmptyOrFull then ok (bb, .none)
    else (mix a.boundary b.boundary).bind fun m => ok (bb, m.2)

end Kigumi.Cli

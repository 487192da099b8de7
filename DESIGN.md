# Formal model of kigumi (mesh Boolean library) in Lean 4

The code is read as text from `/repo` (pinned commit); it is neither built nor run. Everything below `lean/Verif`
is Lean 4.33 with single Mathlib modules imported where ordered-field tactics are needed.

## Layout

* `lean/Verif/Model/*.lean` – the code, function by function, as total computable functions. Every definition has a
  comment with file and lines in `/repo` and says where it simplifies.
* `lean/Verif/Spec/*.lean` – what a user expects, written without the model's helpers.
* `lean/Verif/Proofs/*.lean` – helper lemmas (nothing here is a claim).
* `lean/Verif/Props/*.lean` – the property theorems (names listed in `MANIFEST.json`), each with an `example` showing
  a concrete non-trivial case that satisfies its hypotheses.
* `seeded/LOG.jsonl` – mutation log. `tools/mkprops.py` generates `properties.jsonl`; `tools/mkmanifest.py`
  generates `MANIFEST.json`.

## Trusted base

* Lean's kernel; the axioms `propext`, `Classical.choice`, `Quot.sound` (no own axioms, no `sorry`, no
  `native_decide`, no `bv_decide`).
* The reading of the C++ in the model files (each definition cites its lines).
* The C++ standard library and Boost containers are modelled by their contracts: `std::sort` and `nth_element` are
  *arbitrary* functions returning a permutation with the promised order; hash maps are finite maps; iteration order of
  hash maps is arbitrary (theorems quantify over it).
* CGAL's exact predicates and constructions are modelled by their exact definitions over the rationals
  (`orientation` = sign of a determinant, etc.) or, where they are constructions (`intersection`, constrained
  triangulation), by hypotheses saying what they promise. The kernel is assumed to have an exact number type.
* Memory model: the parallel code is modelled as a transition system with sequentially consistent atomics and mutexes;
  a data race is shown absent or is an explicit outcome.
* `size_t` values are natural numbers; where wrap-around can occur (reading negative counts, `1 + -i` indices) it is
  explicit. Memory exhaustion is not modelled except where a reader's memory use is the subject of the property.
* Undefined behaviour and exceptions are distinct outcomes (`Outcome.ub`, `Outcome.exn`), never assumed away.

## Plan per property

C01, C08, C09 – `Model/BooleanOperator`: the four mask tables verbatim. Spec: truth table of the operator; a face
separates an inner and an outer cell. Finite tables by `decide`, lifted to all inputs through `Extract`.

C02–C04 – `Model/Extract`: the loop with the vertex map. Invariant over the loop: map entries are exactly the emitted
vertices. Data: the record pushed is the record of the source face.

C05–C07 – `Model/RegionBuilder` and `Spec/Arrangement` (cells, indicators, faces with inner/outer cell). Refinement:
extracted faces are the jumps of `op(χA, χB)`; a region "bounded by" a soup is characterised independently.

C10 – transition system of region-producing calls; invariant.

C11, C12 – `Model/Side` with exact rational points; the ray/face intersection oracle is specified; loop
invariant over faces tried.

C13–C15 – `Model/ParallelDo`: small-step semantics of the two overloads, arbitrary interleavings; invariants
and a decreasing measure.

C16 – `Model/ParallelSort`: partition arithmetic and merge rounds; sort and merge are arbitrary functions meeting their
contracts.

C17 – `Model/Context`: stack discipline of constructors/destructors. C18 – thread counts of both overloads;
expected to be false for the stateless overload (negation + partial).

C19 – `Model/ThreadLocal`: histories of operations with per-thread objects; expected false on the single-thread
path (dangling reference), true for fresh threads and for the first call.

C20, C21 – `Model/AABB`: build and traverse on the flat node array with arbitrary partition results; refinement to
list filter; write sets of concurrently running builders.

C22 – `Model/Soup`: operations on the soup with cached index; expected false after mutation.

C23, C24 – `Model/Mesh`: `finalize` index table, iterators as state machines.

C25–C27, C61 – `Model/Flood`, `Model/ClassifyGlobally`: work-list with fuel-free termination measure; reachability
spec. C26 expected partial.

C28–C30 – `Model/ClassifyLocally`: sorted faces around an edge as cyclic list; sector indicators spec; radial order
over ℚ².

C31, C32 – `Model/Coplanar`, `Model/Candidates`.

C33–C36, C64 – `Model/Geometry`, `Model/FaceFace`, `Model/TriangleRegion`: exact determinants; spec with barycentric
coordinates; case analysis on signs, minimal-face descent for completeness.

C37, C38, C62, C63, C65 – `Model/PointList`, `Model/PointInserter`, `Model/Corefine`: histories of insertions;
the constrained triangulator is an oracle.

C39–C43 – `Model/BinaryIO` on byte lists; both rational back ends.

C44–C52 – `Model/TextIO`: character lists; the istream operations of the readers; double formatting/parsing is
abstract with the round-trip hypothesis `parse (fmt x) = x`. C71, C72 – the same model: variants of OFF signatures, plus signs.

C53 – `Model/Cli`.

C54–C60 – `Model/Defects`, `Model/DenseGraph`.

## What is covered, and what each part assumes

* `BooleanOperator`, `Extract`, `RegionBuilder` – masks, face extraction, `compact`, region building. The arrangement
  (`hmix` in C05) is a hypothesis: corefined and correctly classified faces.
* `ParallelDo`, `Threads`, `ParallelSort` – all interleavings of sequentially consistent steps. C66 shows that the loop's
  own variables have no data race; C67 shows which accesses of the classification to face tags race. A racing program
  has undefined behaviour in C++; the interleaving theorems then describe what happens if each access is atomic.
* `Flood` executes "read, check, write" of one face as one step; `TagProgram` splits it into single accesses (C67).
* `AABB` – the node array, concurrent construction with any partition that `nth_element` may return. Boxes in the tree and
  boxes of queries are independent, because approximations may be refined in between.
* `Mesh`, `Flood`, `ClassifyGlobally`, `ClassifyLocally`, `RadialOrder` – the classification. Hash maps are finite maps.
  `base1`/`base2` of the plane projection are given by contract. Angles are real numbers; the code compares signs.
* `Coplanar` – the loop over pairs may perform its writes in any order.
* `FaceFace`, `TriangleRegion` – the whole symbolic triangle intersection; orientation predicates are determinants over ℚ.
  Functions that append to an output parameter return the appended list. The cache is cleared per call, as in the code.
* `PointList`, `PointInserter` – ids of points. The two kernel constructions are parameters with the contract "returns the only
  common point"; formulas that satisfy the contract are given, so the contract is consistent.
* `Corefine` – records, constraints and border edges. CGAL's triangulation is represented by the operations sent to it;
  `crosses` and `finite` are parameters. `std::sort` yields any sorted permutation, `upper_bound` is given by contract.
* `Defects`, `Overlaps`, `DenseGraph` – all defect searches. `is_degenerate` is exact collinearity. Iteration order of hash maps is any
  permutation. Unsigned 32-bit arithmetic of the dense graph is explicit. Thread-local objects of the overlap search are taken as fresh
  (C19 describes when they are not).
* `ThreadLocal` – histories of operations with objects that outlive one operation.
* `IntIO`, `BinaryIO` – streams are byte lists with the state bits `eof` and `fail`; output streams accept everything. A double is its
  bit pattern; its value (`val`) and CGAL's approximation of a rational (`approx`) are parameters. Exporting and importing magnitudes
  follows the documentation of `export_bits`/`mpz_export`; importing no byte gives zero. The buffer that the readers keep between calls is
  part of the state, with any content. Face data are read and written by a codec with a contract, proved for no data and for integers.
  Allocation never fails.
* `TextIO` – OBJ, OFF and PLY. Bytes are characters, the locale is the classic one, `operator>>`, `getline`, `peek` and `ignore` behave as
  the standard says (an extraction that reaches the end sets `eof`; an extraction on a stream that is not good fails). Doubles are any
  type with formatting and parsing; round trips assume that parsing inverts formatting and that formatted doubles are tokens that start
  neither with `+` nor `#` (true of `std::to_chars`). A counter of stored vertices and indices is added for C52. What is left on a stream
  after a reader has returned is not modelled. Allocation never fails (it may, after C52).

* `Side` – `Side_of_triangle_soup` and `Region::bounded_side`. `CGAL::intersection(triangle, ray)`, the tree query and `std::partial_sort` are parameters
  with the contract `Env.Valid` (exact common points; every face that meets the ray, none twice; a permutation with the two smallest first).
  `Model/SideTree` (C83) takes the reported faces from the tree of `Model/AABB` instead, as any execution of its constructor may have left it: `C83_valid` derives that part of the contract from boxes around the faces and an exact
  test of boxes against rays (`slabs` is one), and `C83_boolean` is C73 with such trees.
  `exactEnv_valid` shows the contract is satisfiable (clipping), `C68_determined` that nothing else of them matters. `Spec/Side` says what it
  means that triangles bound a region; `tetra_bounds` and `tetra_thin` show that this is satisfiable. C75 is about the exception "cannot determine the side of the point": for solids it is thrown
  exactly if every ray through a centroid first meets two triangles at the same distance (the other `throw` is never reached: `single_hit` in `Proofs/ClosedSurface`). This never happens for convex solids, but it happens for
  the three tetrahedra of `Proofs/Beams` and the origin. The members that keep their capacity between calls are cleared
  in each round and not modelled as state.

* `Cli` – `main`, the three commands, `read_region`/`write_region` and the dispatch on extensions. Computations are functions on a world (files by name, standard output,
  standard error) so that effects before an exception remain. Boost.Program_options, the readers and printers of the formats, the builder and the searches for defects are
  parameters (`Env`); `buildWith` is the builder with its warnings and `C53_boolean_sets` connects the command with `C05`. `std::ofstream` has a buffer that is passed on as a
  parameter says, and a device that takes a limited amount; `good()` is asked before the destructor closes the file, as in the code. Non-standard exceptions are not distinguished.
  The seven lines about the progress of `Corefine` and `Mix` on the standard output are modelled (`construct`); how many have been printed when the builder fails is a parameter. What the readers of text formats print before they return `false`
  is a parameter too (`complaint`; it is modelled in C111), with the fact that they print nothing otherwise. Found on the way: two messages of the OFF reader go to the standard output (off.h:149, 164), where `kigumi defects` prints its list; C69 and C104 say so.

* `Mix` – the classification as a whole (finalised mesh, faces around border edges, local and global classification by any interleaving of threads) and the constructor of the builder.
  C70 says what the result of a Boolean operation denotes as a set of points. `Spec/Solid` defines when a region is a set of points (`IsSolid`: a complex of triangles with area,
  none twice, that bounds the set); the result of an operation is again such a region (`Denotes`), so that operations can be nested. What corefinement has to deliver
  (`Corefined` in `Spec/Refine`) is a hypothesis of C70 and proved in C73: pieces cover the given triangles, meet only in common vertices and edges, and the border edges
  contain the edges where pieces of both operands meet without coinciding. `Mix.Env.Valid` collects the contracts of base vectors, sorting and ray intersections;
  `C70_consistent` shows that they can be met, `C70_returns` that executions exist. `Mix.Fails` says that the classification may throw or go on forever. C76: the check for a representative on
  the boundary of the other operand never fires; the proof (`Proofs/Walk`, `Proofs/Complete`) walks within a face from a piece inside an overlap to the border of the overlap, where the local classification has tagged
  coinciding pieces. C77: what is left is the exception of C75, which is really thrown for the beams and a tetrahedron between them (`Props/ProgressFalse`).

* `Corefinement` – the constructor of `Corefine` as a whole and the mixed faces, put together from the models of its parts. Outcomes are a predicate (`Outcomes`), because threads and `std::sort` leave
  choices. The orientation cache of a thread is left out (C35 shows that it makes no difference within one operation; C19 is about its lifetime). The triangulation has a contract:
  given different points of a face and constraints that do not cross (`Cdt.Expected`), its finite faces triangulate the face with these vertices and edges (`Cdt.Correct`). C74 says that, for operands
  without self-intersections, no outcome of the constructor is an exception and that the triangulations get exactly the common points and segments; C73 says that the mixed faces are a corefinement in the
  sense of C70 (`Corefined`) and states C70 from the operands to the result. C73 has two hypotheses about the operands besides being solids: of the corners that two faces have in common no four are on a circle
  (`NoFourOnCircle`; else two coplanar faces may be triangulated differently), and where faces coincide, the operands are manifold (`ManifoldWhereCoinciding`). The proof goes through `Proofs/Operands`
  (ids, tags, candidate pairs, records), `Inserted` (points), `Cdts`, `Built` (triangulations), `Constructed` (mixed faces), `Laid` and the files before it (pieces). The contract `Corefine.Env.Valid` is satisfiable
  (`C74_consistent`), and mixed faces exist for operands that meet in vertices and edges only (`C73_conforming`), and for all operands without self-intersections (C78), since constrained Delaunay triangulations of a triangle
  exist: `Plane` (visibility among points and segments of the plane), `PlaneDelaunay` (the triangles that are lowest for the lifted points, ties broken by a second height), `PlaneCover`, `PlaneMesh` (they cover and meet
  properly), `CdtExists` (in space). C79 has no condition on circles or coinciding faces: `NoOverlap` (no common triangle of two faces) implies both (`Crossing`).
  C84 is about operands that may intersect themselves (`Soups`: faces have an area and do not repeat): the only outcomes of the constructor are a corefinement or the complaint about an operand that does have self-intersections
  (`Complex` fails for it); with `Env.Throws` (CGAL refuses a constraint that crosses an earlier one, as it does with the intersection tag that is the default) crossing cuts are always noticed. For such operands a
  face may be given the same point under two ids; CGAL then returns the vertex it has, while the model goes on with both ids. C84 says nothing about the corefinement that is returned in this case.
  C85 is about client programs that use results as operands (`Spec/Expression`, `Evaluates` in `Props/Expressions`: one environment per operation, which keeps to its contract for the operands of that operation). It needs
  that intermediate results do not overlap: a triangle is not covered by finitely many common parts without area (`Proofs/Expressions`, `cover`). Intersections of convex solids return because the result of an intersection
  is convex again (`convex_of`).
  `ManifoldWhereCoinciding` cannot be dropped (C80): `NonManifold` has solids for which every execution gives a wrong union (`Hinge`: solids touching at edges; operands all of whose faces coincide with faces of the other),
  and `Silent` has solids for which every execution gives a wrong symmetric difference without a warning (`Spill`: what a call of the local classification writes; operands that meet in vertices and edges only, so that nothing is cut).
  C81 replaces the condition on circles: `GivesBy ord` (Model/Corefinement) is `Gives` with triangulations that break ties by an order of the points for each face (`Spec/Ties`: `TiesBy`, `Orders`, `SplitCircles`; CGAL compares points lexicographically along
  two directions that depend on the normal given by `make_cdt_traits`; CGAL's source is not part of /repo, so no particular order is assumed, and `axes` is only an example). `Proofs/Ties` shows that pieces in a common part are determined by the order, and `PlaneCover`
  (`Steep`: heights that break ties) that such triangulations exist. The condition on orders cannot be dropped (C82): with `axes` the orders of faces that look into opposite directions differ, and `TiesNeeded` has two tetrahedra that touch in a square for
  which no execution gives right results (`Untied`: `disagree`, no piece of the one face is a piece of the other; `tags_apart`, then every face is classified as inside or outside). C82 does not say that an execution returns: which faces are tagged depends on
  the order in which `std::sort` leaves faces at the same angle.
  C86 follows the faces of a result back to the operands (`Spec/Origin`: being part of a triangle, and facing like it; `Corefine.gives_laid_data` for the data of the pieces). The first part assumes nothing of the classification, since tags
  decide which faces are taken and whether they are reversed, but not what data they have.
  C87 puts the layers together: `Model/Program` says what of the environment of the model of the command line (`Cli.Env`, C53) is done by the models of files (`BinaryIO`) and of Boolean operations (`Library`: reading, writing and building
  are those of these models, on the points that the numbers in the files stand for, and numbers computed are exact), and `Spec/Files` says what set a file holds without referring to the program. `C87_consistent` shows that there is such an environment,
  and `Complement.complement` is a run of the whole program on a concrete file. Simplifications: kinds of regions above 2 (which `static_cast` takes over from files) are taken for `BOUNDARY_DEFINED`, as all queries of `Region` do; the
  other formats remain parameters of the environment; whether the approximation of a result is a point is left open (`Prints`: any points with the places of the result, as evaluation is lazy).
  C88 is about the PLY reader: `Spec/PlyFile` defines PLY files by words of lines, without the stream operations of the model; `Proofs/TextPlyFile` shows that a line of the header is read as its words say (`plyHeaderLine_words`, in both directions),
  `Proofs/TextPlyRead` that the lines of the body are. Numbers of instances may also be written as negative ones (`IsNatOrWrapped`), which C++ wraps; for `IsPly` this is left out.
  C89 and C90 do the same for OFF and OBJ (`Spec/MeshFile`, `Proofs/TextMeshFile`, `Props/MeshFile`): files of any layout are read. Faces with words that are no numbers are refused by the OFF and PLY readers; the OBJ reader ignores the rest of the line without a message
  (`C90_obj_false`: with a letter in the last index, and with a continuation line, a quadrangle becomes a triangle).
  C91 (`Model/FindDefects`, `Spec/Faults`) puts the searches together as the constructor of `Find_defects` does, all of them before anything is printed, and says what the numbers mean in space: vertices are places, edges are pairs of places. `Proofs/Faults` transfers the
  theorems about vertex numbers (C54–C59) along the one-to-one relation between numbers and places after merging. `Searches` says that the parameter of `Cli` is this constructor.
  C92 relates the defects to solids: `Proofs/Balance` shows from the angles of the faces around an edge (as in C76) that in a mesh that bounds a set, faces around an edge alternate in direction, `Proofs/Clean` that common points outside common vertices and edges are what the
  search for overlaps finds. `C92_not_enough` is a mesh without defects that bounds nothing.
  C93 is about open meshes (README.md, third condition). `Spec/Zone` defines what it means that a mesh cuts an open convex set; the proofs of C11, C70 and C75 have been made relative to such a set (the whole space is the special case that the earlier properties are about).
  `Proofs/Sheets` shows that faces that meet inside of the set do so in edges inside of it. `Props/OpenFalse` is the counterexample with a common edge at the end of the convex set, with `Proofs/LoneEdge` for the classification of two faces at a single edge; it supposes that
  `base1()` of planes orthogonal to the z-axis is (1, 0, 0), one of the values that the model admits.
  C94 (`Props/Written`) relates the writers to the definitions of the formats in `Spec/MeshFile` and `Spec/PlyFile`, so that round trips do not rest on reader and writer sharing a mistake.
  C95 extends C87 to text files: `Model/ProgramText` (`TextLibrary`) says that the environment of the command line reads and writes them by the models of the readers and writers, with characters for bytes, and `Spec/TextFiles` what region a text file stands for.
  `F` is the type of finite doubles; NaN, infinities and the translation of ends of lines by some operating systems are not considered. `rounds` and `finite` are what is assumed of `CGAL::to_double`: it is exact for values of doubles; nothing is assumed of other values.
  `C95_consistent` shows that there is such an environment, `Text95.complement` is a run of the program on a concrete OFF file.
  C96 (`Props/Cut`) says what becomes of text files that were cut: `C96_off_partial` and `C96_ply_partial` together with `C96_off_digits` and `C96_ply_digits` cover every place where files of meshes with faces may be cut; `C96_obj_false` and `C96_program_false` are about OBJ files.
  C97 (`Spec/Regular`, `Props/Regular`) states the note on regularization in README.md with interiors and closures of sets of rational points, and removes the exception "apart from points of the surfaces" of C70, C73 and C85: the boundary of a result is the border of the regularized set.
  C98 (`Spec/ObjRead`, `Props/ObjRead`) is the converse of C89 for OBJ files: word by word, exactly the texts that are read.
  C99 (`Model/MeshLife`, `Spec/MeshLife`, `Props/MeshLife`) is about programs over mesh variables, as C22 is about soups: when adjacency queries may be asked; `C99_answers_are_final` says that a second `finalize` changes no answer.
  C100 (`Model/SharedSoup`, `Proofs/SharedSoup`, `Props/SharedSoup`) is about threads that ask one soup for its index: every interleaving of lock, test, loop, assignment and release of `aabb_tree()`, with exceptions at any moment; the construction of the tree itself is one step here, its own threads are C21.
  C101 (`Spec/OffRead`, `Proofs/TextOffRead`, `Props/OffRead`) says exactly which texts `read_off` takes as OFF files and as what; it is about the same definitions (`Model/TextIO`) as C89.
  C102 (`Spec/PlyRead`, `Proofs/TextPlyExact`, `Props/PlyRead`) says the same about `read_ply`: so for all three text formats the texts that are read, and the meshes, are known exactly (C98, C101, C102).
  C103 (`Spec/BinaryRead`, `Proofs/BinaryExact`, `Props/BinaryRead`) is the grammar of the binary format: the reader takes exactly the bytes that begin with a region of the grammar, for every face data whose reader is exact in the same sense (`Exact`, proved for `Null_data` and integers). `Accepted` and `Readable` of `Spec/Files`, on which C71 and others rest, are hereby known without the reader.
  C104 (`Spec/Arguments`, `Props/Arguments`) joins C98, C101, C102 and C103 with the program: the operands that are read are those whose content is in one of four grammars. Assumptions: `Library` (C87) and `TextReaders`, which says that the parameter for reading text files is the model of the readers. What remains a parameter is the parser of options and whether an output can be written (`Cli.Writes`).
  C105 (`Model/RegionLife`, `Spec/RegionLife`, `Props/RegionLife`): programs with region variables. The model keeps the cached index with every object; the specification runs the same program on values that have none. Queries and operations are computations that may ask for indexes (`Req`), with `bounded_side` as an instance (`located`). Exceptions are caught and the program goes on.
  C106 (`Spec/Writable`, `Props/Writable`): which regions can be written, as conditions on numbers, and the lengths of files. `Roomy` assumes that the device has room; what happens otherwise is C53.
  C107 (`Model/Ranges`, `Spec/Ranges`, `Props/Ranges`): `Index` and the iterators with the arithmetic of 64 bit types, where overflow of `std::ptrdiff_t` is undefined; `iterator_facade` as its documentation says; boxes with infinite bounds, without NaN. Other models take the ranges as lists of numbers, as C107 permits.
  C108 (`Spec/Volume`, `Props/Volume`; `Proofs/Area` uses the Lebesgue measure of the plane to show that areas of pieces add up): no new model; a consequence of C70/C73 that can be observed without looking at sets of points. The volume is defined for the faces only, with rational numbers.
  C109 (`Proofs/Valuation`, `Props/Valuation`): no new model. The step from two operands to linear relations between any number of sets uses a volume of sets, which is shown to be well defined; for it a region with the right tags is made for any two solids, without an execution of the classification.
  C110 (`Proofs/Positive`, `Props/Positive`): no new model. A bounded solid is cut along the planes of its own triangles into convex cells, for which C108 applies; a half-space is replaced by a tetrahedron that agrees with it in a large cube.
  C111 (`Model/Messages`, `Spec/Messages`, `Proofs/Messages`, `Props/Messages`): the messages of the three text readers, as functions with the same control flow as the readers in `Model/TextIO`; `Tells` says that the parameter `complaint` of the program is this function. Not modelled: that `std::endl` flushes.
  C112 (`Model/Corefinement: Coplanar.execute`, `Proofs/CoplanarRuns`, `Proofs/Malformed`, `Props/Malformed`): what is done with faces whose corners do not exist. The search for coincident faces, with which the corefinement begins, is modelled with its exceptions. The text of `what()` of `std::out_of_range` is `out_of_range` in the model.
  C113 (`Spec/Reproducible`, `Proofs/Unique`, `Props/Reproducible`, `Props/ReproducibleFiles`): two executions of the same operation, in different environments, give the same faces. The environments and the executions are those of C70 to C82; faces are compared by the coordinates of their corners, up to rotation, and by their data. The files of two runs of the program are compared by what is read from them, since the order of faces and vertices and the bytes may differ.
  C114 (`Spec/Reproducible`, `Props/Exchange`): no new model. An execution with exchanged operands is compared with one without; what it makes of the operands is the same after exchanging the roles of the operands in the mixed faces.
  C115 (`Spec/Reproducible`, `Props/Conforming`): no new model. The condition that faces meet only in common vertices, edges or faces is that of C73_conforming, where executions are shown to exist.
  C116 (`Spec/Regions`, `Props/Turned`): no new model. Complements are those of `Spec.complement`: the same soup with inverted faces. Both operands are boundary-defined; C07 says what the operators give for empty and full operands.

## Not modelled

CGAL's constrained Delaunay triangulation internals, number types, filtered predicates, operating-system files (streams are byte/char lists), memory exhaustion, Boost.Program_options.

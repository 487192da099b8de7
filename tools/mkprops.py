# Generates /verif/properties.jsonl (single source of the property list).
import json
P=[]
def p(title, statement, quantifier, why, anchors):
    P.append(dict(id="C%02d"%(len(P)+1), title=title, statement=statement, quantifier=quantifier, why_tests_cant=why, anchors=anchors))

p("Face selection realises the Boolean operator",
  "For each of the sixteen operators, a boundary face of one operand whose position relative to the other operand is known (outside it, inside it, coincident with same or opposite orientation) is kept by the Boolean result exactly when the operator's truth value differs between the two sides of the face, and it is kept with the orientation that puts the result's inside on the face's negative side.",
  "all 16 operators x all face positions x both operands x both prefer_first values",
  "Tests exercise a handful of meshes per operator; a wrong table cell only shows on a mesh that contains that face/tag combination.",
  ["include/kigumi/Boolean_operator.h: union_mask, intersection_mask, coplanar_mask, opposite_mask", "include/kigumi/Extract.h: Extract::operator()"])
p("Extraction emits exactly the selected faces with their geometry",
  "For every mixed soup and operator, the extracted soup lists, in input order, exactly the selected faces; the corner coordinates of each output face are the corner coordinates of its source face, in the same order, or with the last two corners exchanged when the face must be inverted.",
  "every well-formed mixed soup, every operator, both prefer_first values",
  "Vertex re-indexing depends on the whole history of previously emitted faces; tests compare areas or a single triangle.",
  ["include/kigumi/Extract.h: Extract::operator()", "include/kigumi/Triangle_soup.h: add_vertex, add_face"])
p("Extraction output is compact and well-formed",
  "The soup produced by a Boolean operation has only in-range vertex indices, contains no vertex that no face uses, and never contains two copies of the same source vertex.",
  "every well-formed mixed soup, every operator",
  "An index error appears only for particular sharing patterns between emitted and skipped faces.",
  ["include/kigumi/Extract.h: Extract::operator()"])
p("Face data follows its face",
  "Every face of a Boolean result carries the user data of the input face it is (a piece of); no data value is invented, lost or attached to another face.",
  "all pairs of input regions and all operators (given what the triangulator returns for each face)",
  "Depends on the number of pieces every face is cut into; tests check total areas on cubes.",
  ["include/kigumi/Mix.h: Mix::operator()", "include/kigumi/Extract.h", "include/kigumi/Boolean_region_builder.h: Boolean_region_builder ctor"])
p("Boolean result of two boundary-defined regions is the set operation",
  "If the mixed mesh is a correctly classified arrangement of the two boundaries, then the region returned for operator op contains a cell of the arrangement exactly when op applied to (cell in A, cell in B) is true.",
  "every arrangement (any number of cells and faces), every pair of regions, every operator, both prefer_first values",
  "Tests only check a few cube pairs; the claim is for all arrangements including non-manifold and disconnected ones.",
  ["include/kigumi/Extract.h", "include/kigumi/Boolean_region_builder.h: operator()"])
p("Results without faces are decided correctly",
  "When no face is selected, the builder returns the full region if the operator holds everywhere and the empty region if it holds nowhere, and it throws 'inconsistently oriented' only for inputs that no consistent arrangement can produce.",
  "every classified arrangement with connected cells whose selected face set is empty, every operator",
  "Tests cover two configurations per operator; the fall-through of the switch is only reached for special meshes.",
  ["include/kigumi/Boolean_region_builder.h: operator()"])
p("Empty and full operands obey set algebra",
  "If one or both operands are the empty or the full region, the result is what set algebra prescribes: empty or full, or the other operand's faces unchanged, or the other operand's faces all inverted.",
  "all operators, all combinations with at least one empty/full operand, every boundary of the other operand",
  "Unit tests use one single-triangle mesh.",
  ["include/kigumi/Boolean_region_builder.h: Boolean_region_builder ctor, operator(), apply"])
p("Complement duality and operand exchange",
  "For every mixed soup, the result of the complementary operator consists of the same faces with opposite orientation; exchanging the roles of the operands, the operator's arguments and the preference yields the same faces.",
  "every mixed soup, every operator",
  "Relates results of two runs for every input.",
  ["include/kigumi/Boolean_operator.h", "include/kigumi/Extract.h", "include/kigumi/Boolean_region_builder.h: apply"])
p("Coincident faces are emitted once, from the preferred operand",
  "Of two coincident faces (same or opposite orientation), every operator emits either none or exactly one; which operand's copy (and hence whose face data) is emitted is decided by prefer_first alone.",
  "all operators, both preferences, every mixed soup containing coincident pairs",
  "A double or missing emission only shows for particular operator/tag/preference combinations.",
  ["include/kigumi/Boolean_operator.h: coplanar_mask, opposite_mask", "include/kigumi/Extract.h"])
p("Region invariant: boundary-defined regions have faces",
  "A region can be obtained through constructors, empty(), full() and Boolean operations only in one of three forms: empty without faces, full without faces, or boundary-defined with at least one face; constructing a region from a soup without faces throws.",
  "every finite sequence of region-producing API calls",
  "Invariant over all histories.",
  ["include/kigumi/Region.h: Region", "include/kigumi/Boolean_region_builder.h: operator()"])
p("bounded_side reports ON_BOUNDARY exactly on the surface",
  "For a boundary-defined region, if bounded_side(p) returns a value, that value is ON_BOUNDARY exactly when p lies on one of the closed boundary triangles.",
  "every soup with at least one face (non-degenerate triangles), every query point with exact rational coordinates",
  "Requires all query points; tests use a 5x5x5 grid on one cube.",
  ["include/kigumi/Side_of_triangle_soup.h: operator()", "include/kigumi/Region.h: bounded_side"])
p("bounded_side agrees with the region",
  "If the soup bounds a region (the indicator is constant along segments that avoid the surface and jumps across a singly covered surface point according to the face orientation) and its triangles do not overlap in areas, then bounded_side(p) returns ON_BOUNDED_SIDE exactly for the points of the region and ON_UNBOUNDED_SIDE for the others, for points off the surface.",
  "every soup, every indicator bounded by it, every query point for which the call returns",
  "Ray shooting hits edges, vertices and coplanar faces in unboundedly many ways.",
  ["include/kigumi/Side_of_triangle_soup.h: operator()", "include/kigumi/Region.h: bounded_side"])
p("Parallel loops process every element exactly once",
  "When no body throws, a parallel loop applies the body to each element exactly once and merges every per-thread state exactly once, so that the merged result is a permutation-equivalent of the sequential one, for every thread count and every interleaving.",
  "every range, thread count and schedule",
  "Schedules cannot be enumerated by running tests.",
  ["include/kigumi/parallel_do.h: parallel_do (both overloads)"])
p("Parallel loops propagate exceptions",
  "If a body throws, the parallel loop ends by throwing one of the exceptions thrown by the bodies; if it ends normally, no body threw and every element was processed. In any case the elements that were processed are a beginning of the range, each processed once.",
  "every range, thread count and schedule",
  "Depends on which thread observes the error first.",
  ["include/kigumi/parallel_do.h: parallel_do"])
p("Parallel loops terminate",
  "Every execution of a parallel loop with terminating bodies is finite and ends with all threads joined; no schedule deadlocks.",
  "every range, thread count and schedule",
  "Liveness over all schedules.",
  ["include/kigumi/parallel_do.h: parallel_do"])
p("Parallel sort sorts",
  "parallel_sort leaves in the range a sorted permutation of its initial contents, for every size and number of threads, and for every order in which the threads perform the steps between barriers.",
  "every input sequence, comparator that is a strict weak order, thread count, schedule between barriers",
  "Partition arithmetic and merge rounds depend on size and thread count; tests run one machine configuration on small inputs.",
  ["include/kigumi/parallel_sort.h: parallel_sort"])
p("Scoped options are restored",
  "A context object installs its options for the current thread until it is destroyed, after which the previous options are in force again, for arbitrarily nested scopes; the configured thread count always lies between 1 and the hardware concurrency (at least 1).",
  "every properly nested sequence of context scopes, every requested thread count",
  "Unbounded nesting and all inputs.",
  ["include/kigumi/Context.h: Context", "include/kigumi/threading.h: Threading_options"])
p("The configured thread count bounds every parallel loop",
  "No parallel loop uses more worker threads than the thread count configured by the active threading context.",
  "every configuration, range size and hardware concurrency",
  "Not observable from results; depends on hardware.",
  ["include/kigumi/parallel_do.h: parallel_do (stateless overload)", "include/kigumi/threading.h"])
p("Operations do not depend on earlier operations",
  "The intersection computations of a Boolean operation (or defect search) use the points of that operation, whatever operations the program executed before and however many threads are configured.",
  "every history of operations and thread configuration",
  "Stale per-thread objects are only visible for particular histories and may work by accident.",
  ["include/kigumi/Corefine.h: Corefine ctor (thread_local Face_face_intersection)", "include/kigumi/Find_defects.h: overlapping_faces"])
p("Spatial queries are exact",
  "Querying the AABB tree yields exactly the leaves whose box intersects the query, each once, for every set of leaves, whatever partition the selection algorithm produces.",
  "every leaf list, every query shape whose box test is monotone, every outcome of nth_element/sort",
  "Tree shape depends on the number and position of all leaves.",
  ["include/kigumi/AABB_tree/AABB_tree.h: AABB_tree ctor, build, get_intersecting_leaves, traverse"])
p("Concurrent tree construction is safe and deterministic",
  "Building the tree with any concurrency depth limit touches only allocated nodes, makes each allocated node exactly one node of the tree, gives concurrently running builders disjoint node and leaf ranges, and yields the same tree as the sequential build.",
  "every number of leaves, every depth limit, every schedule of the builder threads",
  "Races and layout errors depend on sizes and schedules.",
  ["include/kigumi/AABB_tree/AABB_tree.h: build"])
p("The spatial index of a soup always describes its faces",
  "After any sequence of soup operations (adding vertices and faces, copying, moving, assigning, querying), the index used by queries contains exactly the current faces.",
  "every sequence of public soup operations",
  "Stale caches only show for particular orders of mutation and query.",
  ["include/kigumi/Triangle_soup.h: aabb_tree, add_face, copy/move operations"])
p("Faces around an edge",
  "After finalisation, enumerating the faces around an edge yields, in increasing order and once each, exactly the faces that contain both endpoints.",
  "every mesh with in-range indices, every edge between used vertices",
  "Index table construction depends on gaps in vertex usage.",
  ["include/kigumi/Triangle_mesh.h: finalize, faces_around_edge", "include/kigumi/Mesh_iterators.h: Face_around_edge_iterator"])
p("Faces around a face",
  "Enumerating the faces around a face with a set of border edges terminates and yields exactly the faces that share with it a non-border edge (possibly including the face itself).",
  "every mesh, face and border set",
  "Iterator state machine over arbitrary adjacency lists.",
  ["include/kigumi/Triangle_mesh.h: faces_around_face", "include/kigumi/Mesh_iterators.h: Face_around_face_iterator"])
p("Tag propagation floods exactly the unclassified part of a component",
  "Propagating from a tagged face terminates, gives its tag to exactly the unclassified faces reachable from it through unclassified faces without crossing a border edge, leaves every other face untouched, and raises the operand's 'partially intersects' warning exactly when it meets a differently tagged face.",
  "every mesh, border set, seed and tagging",
  "Graph reachability on all meshes.",
  ["include/kigumi/Propagate_face_tags.h"])
p("Global classification leaves no face unclassified",
  "After a Boolean operation's classification without warnings, every face of the mixed mesh is classified.",
  "every mesh, border set and initial tagging produced by the earlier phases",
  "Needs all component structures.",
  ["include/kigumi/Classify_faces_globally.h"])
p("Classification does not depend on processing order",
  "For consistent inputs the final tags do not depend on the order in which edges and components are processed by the worker threads.",
  "every processing order of edges and components",
  "Schedules cannot be enumerated.",
  ["include/kigumi/Mix.h: Mix::operator()", "include/kigumi/Propagate_face_tags.h"])
p("Local classification around an edge is correct",
  "If the faces around an intersection edge come from two consistently oriented regions, every interior/exterior tag assigned around the edge states the truth: the face is interior exactly when it lies inside the other region.",
  "every number of faces around the edge, every arrangement of their directions, owners and orientations consistent with two regions, every consistent set of tags already present",
  "The number of faces around an edge is unbounded.",
  ["include/kigumi/Classify_faces_locally.h: operator()"])
p("Radial order is a strict weak order by angle",
  "The comparison used to sort faces around an edge is a strict weak order and agrees with the counterclockwise angle from the first base direction.",
  "all non-zero direction vectors with exact coordinates",
  "std::sort has undefined behaviour on an invalid comparator; all triples must be considered.",
  ["include/kigumi/Classify_faces_locally.h: Face_around_edge::classify_radial_bin, Radial_ordering"])
p("Coincidence tags around an edge are truthful",
  "Local classification tags a face COPLANAR (OPPOSITE) only if another face around the edge has the same three vertices with the same (opposite) orientation.",
  "every configuration around an edge",
  "Depends on the number of faces and their sorted positions.",
  ["include/kigumi/Classify_faces_locally.h: operator()"])
p("Coincident faces of the operands are found",
  "A face of one operand is reported coincident with same orientation exactly when some face of the other operand has the same three points in the same cyclic order, and with opposite orientation exactly when the reversed order occurs, independent of which operand has more faces and of the thread schedule, for operands without duplicate faces.",
  "every pair of soups, every order of processing",
  "Depends on rotations of all index triples and table collisions.",
  ["include/kigumi/Find_coplanar_faces.h"])
p("No intersecting face pair is missed",
  "The candidate list contains each pair (first-operand face, second-operand face) of unclassified faces with intersecting boxes exactly once and no other pair; hence every pair of unclassified faces that share a point is in it.",
  "every pair of soups and tags, every schedule",
  "Needs all spatial configurations.",
  ["include/kigumi/Find_possibly_intersecting_faces.h", "include/kigumi/mesh_utility.h: face_bbox"])
p("Triangle-triangle intersection detection is exact",
  "For two non-degenerate triangles the symbolic intersection is non-empty exactly when the closed triangles share a point.",
  "all pairs of non-degenerate triangles with exact coordinates, all vertex orders, shared or coincident points included",
  "Infinitely many degenerate configurations.",
  ["include/kigumi/Face_face_intersection.h"])
p("Triangle-triangle intersection reports exactly the corners of the intersection",
  "For two non-degenerate triangles, a pair (simplex of the first, simplex of the second) is reported exactly when the relative interiors of the two simplices meet in exactly one point, and no pair is reported twice.",
  "all pairs of non-degenerate triangles with exact coordinates",
  "Infinitely many degenerate configurations.",
  ["include/kigumi/Face_face_intersection.h: edge_face_intersection, edge_face_intersection_2d, edge_edge_intersection_2d, edge_edge_intersection_1d"])
p("Cached orientation predicates are correct",
  "The cached, order-normalised orientation predicate returns the orientation of the four points in the order asked, for every order and for repeated points, whatever was asked before.",
  "every sequence of orientation queries",
  "Cache contents depend on history; sign depends on the permutation.",
  ["include/kigumi/Face_face_intersection.h: sort, orientation"])
p("Simplex codes form a faithful lattice",
  "For the codes of simplices of the two triangles, joining a left and a right simplex and projecting back recovers both; join and meet compute union and intersection of vertex sets; dimension, edges and vertices agree with the vertex sets, and non-simplex codes are rejected.",
  "all codes",
  "Exhaustive over the encoding, used by every other claim.",
  ["include/kigumi/Triangle_region.h"])
p("Intersection points lie where they are reported and are shared",
  "The id returned for a pair of simplices denotes a point in the relative interior of both; the same geometric pair gives the same id regardless of argument order and history; existing ids keep denoting the same points.",
  "every history of insertions, every pair of simplices reported by the triangle-triangle intersection",
  "Depends on caches and histories.",
  ["include/kigumi/Intersection_point_inserter.h"])
p("Vertex merging identifies exactly equal points",
  "While uniqueness checking is on, two inserted points receive the same id exactly when they are equal, ids are consecutive in order of first appearance, and each id denotes its point; ids never change afterwards.",
  "every sequence of insertions",
  "History dependent.",
  ["include/kigumi/Point_list.h: Point_list"])
p("Binary files round-trip",
  "Writing a region in the binary format and reading it back into a fresh region yields the same region: kind, coordinates (exact rationals included), faces and face data; trailing bytes are not consumed.",
  "every region with fewer than 2^31 vertices, faces and magnitude bytes",
  "All values and sizes.",
  ["include/kigumi/io.h", "include/kigumi/Triangle_soup.h: Write, Read", "include/kigumi/Region.h: Write, Read", "include/kigumi/Region_io.h", "include/kigumi/Mesh_indices.h: Write, Read"])
p("Truncated binary files are rejected",
  "Reading any proper prefix of a binary file reports failure by returning false, and never crashes.",
  "every region, every truncation point",
  "Crash points and contents cannot be enumerated.",
  ["include/kigumi/Region_io.h: read_kigumi_region", "include/kigumi/io.h: Read<cpp_rational>, Read<mpq_class>"])
p("Reading a binary region replaces the target",
  "Successfully reading a binary region makes the target equal to the stored region, whatever the target contained before; a failed read leaves the target unchanged.",
  "every prior target value, every file",
  "History dependent.",
  ["include/kigumi/Triangle_soup.h: Read<Triangle_soup>", "include/kigumi/Region_io.h"])
p("Regions read from binary files satisfy the region invariant",
  "A successful binary read yields an empty region, a full region, or a boundary-defined region with at least one face, with all face indices in range.",
  "every byte sequence accepted by the reader",
  "All byte sequences.",
  ["include/kigumi/Region.h: Read<Region_kind>, Read<Region>"])
p("Narrowing conversions are checked",
  "Integers are written and read without silent truncation or sign change: a value outside the target type raises an error, a value inside is preserved exactly.",
  "all values of all integer types involved",
  "Boundary values of every type.",
  ["include/kigumi/io.h: checked_cast, kigumi_write, kigumi_read"])
p("OBJ files round-trip",
  "Reading a written OBJ file yields the same vertices (as doubles) and faces, with positive or negative indices.",
  "every soup with in-range indices and fewer than 2^63 vertices, both index styles",
  "All sizes and index values.",
  ["include/kigumi/io/obj.h: read_obj, write_obj", "include/kigumi/io/ascii.h"])
p("OFF files round-trip",
  "Reading a written OFF file yields the same vertices (as doubles) and faces whenever the soup has at least one face.",
  "every soup with at least one face",
  "All sizes and index values.",
  ["include/kigumi/io/off.h: read_off, write_off", "include/kigumi/io/ascii.h"])
p("PLY files round-trip",
  "Reading a written PLY file yields the same vertices (as doubles) and faces.",
  "every soup",
  "All sizes and index values.",
  ["include/kigumi/io/ply.h: read_ply, write_ply", "include/kigumi/io/ascii.h"])
p("Failed mesh reads leave the target unchanged",
  "If reading an OBJ, OFF or PLY stream returns false, the target soup is unchanged.",
  "every input text, every prior target",
  "All malformed inputs.",
  ["include/kigumi/io/obj.h: read_obj", "include/kigumi/io/off.h: read_off", "include/kigumi/io/ply.h: read_ply"])
p("Polygons become triangle fans",
  "A polygon with n vertices in an OBJ, OFF or PLY file contributes exactly the n-2 triangles (v0, v(i+1), v(i+2)) in order, and none when n < 3.",
  "every polygon size and index list",
  "All n.",
  ["include/kigumi/io/obj.h", "include/kigumi/io/off.h", "include/kigumi/io/ply.h"])
p("Comments and blank lines are insignificant",
  "Inserting comment lines (starting with #, possibly after white space) or blank lines anywhere in an OBJ or OFF text does not change the outcome of reading it.",
  "every text, every insertion of such lines",
  "All texts and positions.",
  ["include/kigumi/io/ascii.h: opt_hash_comment_eof", "include/kigumi/io/obj.h", "include/kigumi/io/off.h"])
p("Declared counts are enforced",
  "A successful OFF read consumed exactly the declared number of vertex lines and face lines; a successful PLY read consumed exactly the declared number of lines of every element.",
  "every input text",
  "All texts.",
  ["include/kigumi/io/off.h: read_off", "include/kigumi/io/ply.h: read_ply"])
p("A successful mesh read yields valid faces",
  "After reading a mesh text successfully, every face index refers to a vertex of the soup.",
  "every input text",
  "All texts.",
  ["include/kigumi/io/obj.h: read_obj", "include/kigumi/io/off.h: read_off", "include/kigumi/io/ply.h: read_ply"])
p("Reading work is bounded by the input",
  "The number of vertices and indices a reader stores while processing a text is at most the length of the text.",
  "every input text",
  "Adversarial inputs.",
  ["include/kigumi/io/off.h: read_off (face loop)", "include/kigumi/io/ply.h: read_ply (list loops)"])
p("File format dispatch and command line semantics",
  "A region argument is interpreted by its exact name (:empty:, :full:) or extension; unsupported extensions fail; the boolean command writes exactly the requested outputs, each with the right operator, reports failures by a non-zero exit status, and reports warnings exactly for the operands concerned.",
  "every argument list and reader/writer behaviour",
  "All combinations of arguments and failures.",
  ["cli/main.cc", "cli/utility.h: read_region, write_region", "cli/boolean_command.cc", "cli/convert_command.cc", "include/kigumi/Triangle_soup_io.h"])
p("Defect search merges duplicate vertices faithfully",
  "Before searching for defects, vertices with equal coordinates are merged: the merged soup has pairwise distinct vertices, and every face keeps its number and its corner coordinates.",
  "every soup with in-range indices",
  "All duplication patterns.",
  ["include/kigumi/Find_defects.h: merge_duplicate_vertices"])
p("Isolated vertices",
  "A vertex is reported isolated exactly when no face uses it, and is reported once.",
  "every soup",
  "All soups.",
  ["include/kigumi/Find_defects.h: isolated_vertices"])
p("Edge defects partition the edges",
  "Every edge of the non-degenerate faces is in exactly one class: regular (used once in each direction), boundary (used once), inconsistent (used twice in the same direction), non-manifold (used more than twice); the three defect lists contain exactly the edges of their class, once each.",
  "every soup",
  "All incidence patterns.",
  ["include/kigumi/Find_defects.h: collect_halfedges, boundary_edges, inconsistent_edges, non_manifold_edges"])
p("Non-manifold vertices",
  "A vertex with incident non-degenerate faces is reported non-manifold exactly when its link is not a single simple path or cycle (a connected simple graph with maximum degree two).",
  "every soup",
  "All link graphs.",
  ["include/kigumi/Find_defects.h: non_manifold_vertices", "include/kigumi/Dense_undirected_graph.h"])
p("Degenerate faces",
  "Faces with a repeated vertex are reported as trivially degenerate, faces with three distinct but collinear vertices as non-trivially degenerate; each exactly once, in neither list otherwise, whatever the thread schedule.",
  "every soup, every schedule",
  "All soups and schedules.",
  ["include/kigumi/Find_defects.h: trivial_degenerate_faces, non_trivial_degenerate_faces"])
p("Overlapping faces",
  "The overlap list is non-empty exactly when two non-degenerate faces meet outside their shared vertices and shared edge; every listed face takes part in such a contact and no face is listed twice.",
  "every soup with distinct vertices, every schedule",
  "All pairs of faces.",
  ["include/kigumi/Find_defects.h: overlapping_faces", "include/kigumi/Face_face_intersection.h"])
p("Dense graph queries are correct",
  "The packed graph stores edge multiplicities faithfully (no two vertex pairs share a cell, no access is out of bounds), and degree, simplicity, maximum degree and connectivity answer as the mathematical multigraph; the connectivity search terminates.",
  "every order and every sequence of added edges",
  "All graphs; exponential re-push or aliasing shows only on particular graphs.",
  ["include/kigumi/Dense_undirected_graph.h"])
p("Warnings identify the right operand",
  "After a Boolean operation, the warning for an operand is present exactly when the flood from some classified face of that operand met a face with a different classification; combining warnings loses none.",
  "every mesh, tagging and merging order",
  "Order of merging and all meshes.",
  ["include/kigumi/Warnings.h", "include/kigumi/Propagate_face_tags.h", "include/kigumi/Mix.h"])
p("The mixed soup is assembled consistently",
  "The mixed mesh consists of the pieces of the first operand's faces followed by those of the second's; each piece is marked with its operand, its coincidence tag and its data; there is exactly one face-data record per face.",
  "every pair of soups and every triangulation result",
  "Counts depend on all faces.",
  ["include/kigumi/Mix.h", "include/kigumi/Corefine.h: get_left_faces, get_right_faces, get_faces"])
p("Intersection edges form the intersection polygon",
  "For each intersecting face pair, the recorded border edges are exactly the consecutive pairs of its intersection corners in cyclic order (one edge for two corners, none for one), each stored with ordered endpoints, and the constraints inserted into each face's triangulation are the same edges.",
  "every list of intersection corners",
  "All corner counts.",
  ["include/kigumi/Corefine.h: get_intersecting_edges, insert_intersection", "include/kigumi/Mesh_entities.h: make_edge"])
p("The corners of a triangle-triangle intersection are listed in cyclic order",
  "For two non-degenerate triangles the returned list contains every corner exactly once, has at most six entries, and consecutive corners lie on a common edge of one of the triangles.",
  "all pairs of non-degenerate triangles",
  "Infinitely many configurations; a stuck walk repeats a corner.",
  ["include/kigumi/Face_face_intersection.h: operator()"])
p("Intersection records are grouped by face",
  "For each face that intersects the other operand, exactly one triangulation is built and it receives exactly the intersection records of that face, each once.",
  "every list of intersection records, every outcome of the unstable sort",
  "All multiplicities.",
  ["include/kigumi/Corefine.h: Corefine ctor (ranges)"])
p("Parallel loops have no data races of their own",
  "In every execution of a parallel loop, no two threads access the loop's shared variables (cursor, stored exception, merged state) concurrently unless all accesses are atomic, protected by one mutex, or reads.",
  "every range, thread count and schedule, including throwing bodies",
  "A data race is undefined behaviour that a run need not show.",
  ["include/kigumi/parallel_do.h"])
p("Concurrent classification does not race on face tags",
  "While the faces around intersection edges are classified by several threads, no two threads access the tag of one face concurrently with at least one of them writing it.",
  "every mesh, border set and schedule",
  "A data race is undefined behaviour that a run need not show.",
  ["include/kigumi/Mix.h", "include/kigumi/Classify_faces_locally.h", "include/kigumi/Propagate_face_tags.h"])
p("bounded_side does not depend on the order of the spatial index",
  "The result of bounded_side (value or exception) is determined by the soup and the point: it does not depend on the order in which the spatial index reports faces, on additional faces it reports, on which end of a common segment comes first, or on how std::partial_sort arranges equal distances.",
  "every soup with at least one face, every point, any two behaviours of index, intersection and sort within their contracts",
  "Orders depend on the library and on thread scheduling.",
  ["include/kigumi/Side_of_triangle_soup.h: operator()", "include/kigumi/Region.h: bounded_side"])
p("The defects command reports exactly the kinds of defects present",
  "kigumi defects ends with status 0 exactly when the mesh can be read and all searches return, also when defects are found; it prints one line with the number for each kind of defect that is present, in a fixed order, nothing for the others, and changes no file. If it ends with another status, it has printed no such line (all searches are made before anything is printed); the standard output then has nothing but what a reader says there about a file that it refuses.",
  "every argument list, file system, reader and outcome of the searches",
  "The command is not run by the tests.",
  ["cli/defects_command.cc: operator()", "cli/main.cc: main"])
p("A Boolean operation on two regions is the operation on their sets of points",
  "If the boundaries of two regions are complexes of triangles that bound sets of points, and corefinement cuts them so that pieces meet only in common vertices and edges, then, whatever the threads do: every piece gets its right tag, there are no warnings, no operation throws, and the region returned bounds the result of the operation on the two sets, apart from points of the two surfaces; bounded_side of the result agrees with the sets.",
  "every pair of such regions, every operator, every interleaving of the classification, every sorting and choice of base vectors within the contracts",
  "Infinitely many solids and points; the property is about whole sets.",
  ["include/kigumi/Boolean_region_builder.h: ctor, operator()", "include/kigumi/Mix.h: operator()", "include/kigumi/Classify_faces_locally.h", "include/kigumi/Classify_faces_globally.h", "include/kigumi/Region.h: bounded_side"])
p("OFF signatures with prefixes are equivalent, and no others are accepted",
  "A text OFF file whose signature is OFF with any of the prefixes ST, C, N (in this order, each optional) is read exactly like the file with the signature OFF; a file is only read successfully if its first line that is not blank or a comment has one of these eight signatures, followed by nothing but a comment (so binary files are refused).",
  "every prefix and every remaining text, valid or not",
  "Infinitely many files; tests contain one signature.",
  ["include/kigumi/io/off.h: operator>>(Off_signature), read_off"])
p("A plus sign in front of a coordinate makes no difference",
  "Putting one plus sign in front of coordinates that have none changes nothing about the result of reading an OBJ file, whether it succeeds or fails; in all text formats a coordinate is read like the coordinate without the plus sign.",
  "every text, every choice of coordinates, every number parser",
  "Infinitely many files; writers never write plus signs.",
  ["include/kigumi/io/ascii.h: operator>>(Double)", "include/kigumi/io/obj.h: read_obj"])
p("Boolean operations on solids are right from the operands to the result",
  "For two solids in general position (no four of the corners that two faces have in common are on a circle, and operands are manifold where faces coincide): the mixed faces that corefinement gives are pieces of the faces of the operands that cover them and meet only in common vertices and edges, and the region that a Boolean operation returns bounds the result of the operation on the two sets of points, apart from points of the two surfaces.",
  "every pair of such solids, every operator, every interleaving of all parallel loops, every order of equal keys in sorting, every constrained Delaunay triangulation",
  "Infinitely many solids, points and schedules.",
  ["include/kigumi/Corefine.h", "include/kigumi/Triangulation.h", "include/kigumi/Mix.h", "include/kigumi/Boolean_region_builder.h"])
p("Corefinement of operands without self-intersections never throws",
  "If the triangles of each operand have nothing in common but vertices and edges, the constructor of Corefine returns; in particular neither operand is reported to have self-intersections. The triangulation of a face gets exactly the extreme points of what the face has in common with the faces of the other operand, and exactly the segments between them, so its constraints never cross; collecting faces and edges does not throw either.",
  "every pair of such operands and every interleaving of the parallel loops",
  "Infinitely many pairs of meshes and schedules.",
  ["include/kigumi/Corefine.h: Corefine ctor, get_left_faces, get_right_faces, get_intersecting_edges", "include/kigumi/Triangulation.h", "include/kigumi/Mix.h"])
p("The side of a point off the surface of a solid is found",
  "For a region whose boundary is a complex of triangles that bounds a set of points, and a point that is on none of the triangles, bounded_side does not throw but returns the right side. (False: three disjoint tetrahedra can hide all centroids from a point behind edges. True whenever some centroid is visible from the point, which is always so if the region is convex; it throws if and only if, for each centroid, the ray through it first meets two triangles at the same distance.)",
  "every such region, every point, every order in which the tree reports faces",
  "Infinitely many solids and points; the code says that it should not happen.",
  ["include/kigumi/Side_of_triangle_soup.h: operator()", "include/kigumi/Region.h: bounded_side"])
p("The global classification never finds a representative on the boundary of the other operand",
  "For solids as operands (as for C73): when the local classification has dealt with all intersecting edges, the centroid of every face that is left without a tag is off the surface of the other operand, so the exception 'local classification must be performed before global classification' is never thrown.",
  "every pair of such solids, every interleaving of the threads, every constrained Delaunay triangulation, every order of the faces around an edge within the contract of sorting",
  "The check is a guard against errors of the library; no test can reach it, and none can show that it is never reached.",
  ["include/kigumi/Classify_faces_globally.h: operator()", "include/kigumi/Classify_faces_locally.h: operator()", "include/kigumi/Mix.h: operator()"])
p("The classification of the faces returns",
  "For solids as operands (as for C73) the classification neither throws nor goes on forever, so that Boolean operations have a result. (False: for three disjoint beams and a small tetrahedron between them every execution throws, although the surfaces are apart. True if from every point off a surface some centroid is visible, in particular for all convex operands; in general the only possible reason is a face from whose centroid every ray to a centroid meets two triangles at once.)",
  "every pair of such solids, every interleaving of the threads, everything that CGAL may return",
  "Infinitely many solids and schedules.",
  ["include/kigumi/Mix.h: operator()", "include/kigumi/Classify_faces_globally.h: operator()", "include/kigumi/Side_of_triangle_soup.h: operator()"])
p("What the corefinement asks of the triangulation can be had",
  "Constrained Delaunay triangulations of a triangle exist for all finitely many points in it and all constraints that do not cross. For operands without self-intersections, every triangulation that the constructor of Corefine asks CGAL for is of this kind, so that there is an execution in which mixed faces are constructed.",
  "every triangle, set of points and set of constraints; every pair of operands and every interleaving of the threads",
  "Existence for infinitely many inputs, and the absence of impossible requests, cannot be tested.",
  ["include/kigumi/Corefine.h: Corefine ctor, insert_intersection", "include/kigumi/Triangulation.h: insert, insert_constraint, get_faces"])
p("Boolean operations of solids whose faces do not overlap are right",
  "For two solids such that no face of one has a triangle in common with a face of the other (for instance, without parallel faces): if the classification returns, the result of any Boolean operation bounds the result of the operation on the two sets. For convex solids of this kind, in particular for any two tetrahedra without parallel faces, all operations return, in every execution.",
  "every pair of such solids, every operator, every interleaving of all parallel loops, every constrained Delaunay triangulation",
  "Infinitely many solids, points and schedules.",
  ["include/kigumi/Boolean_region_builder.h: ctor, operator()", "include/kigumi/Corefine.h", "include/kigumi/Mix.h: operator()"])
p("Boolean operations are right for all solids that satisfy the documented conditions, also where faces coincide",
  "For two solids as in C73, whose boundaries may be non-manifold, the region that a Boolean operation returns bounds the result of the operation on the two sets of points. (False: for a tetrahedron and the same tetrahedron with two others hinged to it at opposite edges, the union lacks one of the tetrahedra in every execution; and there are solids made of hinged tetrahedra for which the symmetric difference lacks one of them in every execution although no warning is given. True for operands that are manifold at the edges of faces that coincide with faces of the other operand.)",
  "every pair of such solids, every operator, every interleaving of all parallel loops, every constrained Delaunay triangulation",
  "Infinitely many solids; the tests contain no operands that are non-manifold where faces coincide.",
  ["README.md: conditions on boundary meshes", "include/kigumi/Propagate_face_tags.h", "include/kigumi/Classify_faces_globally.h: find_unclassified_connected_components", "include/kigumi/Boolean_region_builder.h"])
p("Boolean operations are right also where corners of overlapping faces are on a circle, if ties are broken by orders of the points",
  "Constrained Delaunay triangulations need not be unique: four points on a circle can be triangulated in two ways, and the faces of the two operands have to be triangulated in the same way where they overlap. Let the triangulation of each face break ties by an order of the points of its plane (as symbolic perturbation does: the greatest of the four points is raised). Such triangulations exist for all operands without self-intersections. If, for overlapping faces of the two operands, the greatest of four corners on a circle is the same point for both faces or the two are opposite to each other, Boolean operations of solids are right as in C73, and those of convex solids return. For orders that depend on the direction of the normal only, the condition is required only of faces that look into opposite directions.",
  "every pair of such solids, every family of orders of points, every operator, every interleaving of all parallel loops",
  "Infinitely many solids, orders and schedules.",
  ["include/kigumi/Triangulation.h: make_cdt_traits, get_faces", "include/kigumi/Corefine.h", "include/kigumi/Mix.h: operator()", "include/kigumi/Boolean_region_builder.h: ctor, operator()"])
p("Boolean operations of convex solids are right also where they touch in a rectangle",
  "Let the triangulation of each face break ties by comparing points along two directions that depend on the normal of the face. For two convex solids the region that a Boolean operation returns bounds the result of the operation on the two sets of points. (False: the orders of two faces that look into opposite directions are not the same. For a tetrahedron on a table and one below it whose bases have a square in common, the two faces divide the square along different diagonals; no face is found to coincide with another one, and in every execution that returns, the union contains a part of the square inside of the set, or the intersection of the two sets, which have no point in common, is not empty. True if no such faces have four corners of their common part on a circle.)",
  "every pair of such solids, every operator, every interleaving of all parallel loops",
  "Infinitely many solids and schedules; the tests that put solids side by side use faces that coincide.",
  ["include/kigumi/Triangulation.h: make_cdt_traits", "include/kigumi/Corefine.h", "include/kigumi/Classify_faces_locally.h: operator()", "include/kigumi/Boolean_region_builder.h: ctor, operator()"])
p("Point location through the spatial index is right, whatever threads built the index",
  "The faces that the AABB tree of a soup reports for a ray are exactly those whose boxes meet the ray, each once, whatever execution of the concurrent constructor has built the tree. So bounded_side answers correctly for every soup that bounds a region and every point off the surface for which it returns, the answer does not depend on the tree at all, and Boolean operations whose global classification asks such trees are right.",
  "every soup, every ray and point, every interleaving of the threads that build the tree, every arrangement of leaves that sorting may give, all boxes around the faces",
  "Infinitely many soups, rays and schedules.",
  ["include/kigumi/Side_of_triangle_soup.h: operator()", "include/kigumi/Triangle_soup.h: aabb_tree", "include/kigumi/AABB_tree/AABB_tree.h: AABB_tree, build, get_intersecting_leaves, traverse", "include/kigumi/Classify_faces_globally.h"])
p("Complaints about self-intersections are right and name the right operand",
  "For any two operands without degenerate or repeated faces, which may intersect themselves, the constructor of Corefine returns, or throws \"the first mesh has self-intersections\" and the first mesh has some, or throws \"the second mesh has self-intersections\" and the second mesh has some; nothing else happens, and there is an execution. If CGAL refuses constraints that cross, and two faces of the second mesh cut a face of the first one in segments that cross, every execution throws the complaint about the second mesh; likewise for the first mesh, if the second one has no self-intersections. Self-intersections are not noticed where the other mesh is not: operands without common points are never complained about.",
  "every pair of such operands, every interleaving of the threads, everything that CGAL may return",
  "Infinitely many operands and schedules.",
  ["include/kigumi/Corefine.h: Corefine ctor, insert_intersection", "include/kigumi/Triangulation.h: insert_constraint", "include/kigumi/parallel_do.h"])
p("Expressions of any number of Boolean operations denote the right set",
  "Results of Boolean operations can be operands of further ones. For any expression of Boolean operations on solids, each used once, such that no faces of different solids have a triangle in common: the result of every execution of the operations is a region whose boundary has no self-intersections and is made of parts of the given surfaces, and it is the set that the expression denotes, apart from points of these surfaces; no operation gives a warning, and bounded_side answers accordingly. An intersection of any number of convex solids, and any operation on two such intersections, returns in every execution.",
  "every expression, every family of such solids, every operator, every interleaving of all parallel loops in all operations, every constrained Delaunay triangulation",
  "Infinitely many expressions, solids and schedules; results of operations have far more faces than the operands of tests.",
  ["include/kigumi/Region.h: Region", "include/kigumi/Boolean_region_builder.h: ctor, operator()", "include/kigumi/Corefine.h", "include/kigumi/Mix.h: operator()"])
p("Faces of results are parts of faces of the operands, with their data",
  "Every face of the region that a Boolean operation returns is part of a face of one of the operands and carries the data of that face; it looks into the same direction if the result of the operation grows with that operand (union, intersection, the first operand of a difference) and into the opposite one if it shrinks (the second operand of a difference). This holds whether or not the classification is right. Where a face of the result is on both boundaries, it carries the data of a face of the preferred operand (if no four corners of a common part of faces are on a circle, or ties are broken by orders of points). Faces of results of expressions are parts of faces of the given solids, with their data.",
  "every pair of solids, every operator, every preference, every interleaving of all parallel loops, every constrained Delaunay triangulation, every expression",
  "Infinitely many solids and schedules; the tests of data use few faces.",
  ["include/kigumi/Corefine.h: get_left_faces, get_right_faces", "include/kigumi/Mix.h: operator()", "include/kigumi/Extract.h", "include/kigumi/Boolean_region_builder.h: ctor, operator()"])
p("The command-line program combines files of solids as the operators say",
  "If `kigumi boolean` ends with status 0 for input files that hold solids (such that no four corners of a common part of faces are on a circle, and the boundaries are manifolds where they coincide), nothing is printed but the lines about the progress, files other than the outputs are unchanged, and each `.kigumi` output holds the region that the last option for it asks for, apart from points of the surfaces: whoever reads the file on whatever host gets that set. If an output does not fit its device, no reader accepts what is left of it. Outputs can be inputs of further runs: a script of runs evaluates an expression, if no faces of different solids overlap and each solid is used once. For convex solids that do not overlap, the program does end with status 0, if the results can be written.",
  "every content of the files, every choice of options, every host, every interleaving of all parallel loops, every constrained Delaunay triangulation",
  "Infinitely many files, options and schedules; the program is not run by the tests.",
  ["cli/main.cc: main", "cli/boolean_command.cc: operator()", "cli/utility.h: read_region, write_region", "include/kigumi/Region_io.h: read_kigumi_region, write_kigumi_region", "include/kigumi/Region.h: Read, Write", "include/kigumi/Boolean_region_builder.h"])
p("PLY files of any layout are read, and what lacks something is refused",
  "Every text that is a PLY file (ASCII) is read: elements in any order, any properties in any order (also lists, also several with the same name or type), comments and empty lines in the header, any white space including carriage returns, plus signs, words after the values, with or without an end of the last line. The points are those of the first element vertex (first scalar properties x, y, z), the faces are the fans of the polygons of the first element face (first list vertex_index or vertex_indices). Conversely, if the reader succeeds, the text has a header that declares all that is needed and exactly the declared number of lines; a file that lacks an element, a property or lines, or has more lines, is refused and the target is unchanged.",
  "every text, every layout, every number of elements, properties, instances and items",
  "Infinitely many layouts; the tests read files of one layout.",
  ["include/kigumi/io/ply.h: read_ply", "include/kigumi/io/ascii.h: operator>>"])
p("OFF and OBJ files of any layout are read",
  "Every OFF file is read: the signature is OFF with ST, C and N in front or not, comments and blank lines may be anywhere, there may be any white space, plus signs and further words in lines (such as colours). Files whose first line is anything else, or says BINARY, are not accepted. Every OBJ file is read: vertices, faces and other lines in any order, references counted from the start or backwards from the last vertex above, with texture and normal indices or without, comments at the ends of lines. The points are those given, and the faces are the fans of the polygons.",
  "every text, every layout, every number of vertices, faces and items",
  "Infinitely many layouts; the tests read few files.",
  ["include/kigumi/io/off.h: read_off, operator>>", "include/kigumi/io/obj.h: read_obj", "include/kigumi/io/ascii.h: operator>>"])
p("Files with incomplete faces are refused",
  "If a word of a face is not a number where the index of a vertex is expected, or there are fewer indices than announced, the reader returns false and keeps the target. (This holds for OFF and PLY. It is false for OBJ, where the rest of the line is ignored without a message, so that faces lose vertices, for example if a face continues in the next line after a backslash.)",
  "every text with such a face, in all three formats",
  "Infinitely many malformed files; the tests have none.",
  ["include/kigumi/io/off.h: read_off", "include/kigumi/io/ply.h: read_ply", "include/kigumi/io/obj.h: read_obj"])
p("The numbers of defects are those of the triangles in space",
  "For a soup of valid faces, fewer than 2^32, all searches of Find_defects return, and their lists have as many elements as there are, in space: vertices that are no corner of a face; places around which the faces form no fan or cycle; pairs of places used once as an edge; used twice in the same direction; used more than twice; faces with two corners in one place; faces with three different corners on a line; faces that overlap a later one. The numbers do not depend on how vertices are stored (duplicate vertices, their order), on the iteration order of maps, on threads or on the boxes of the spatial index. kigumi defects prints these numbers, leaving out those that are 0, and ends with status 0.",
  "every soup, every interleaving, every order of maps, every valid spatial index",
  "Infinitely many meshes; the tests have a handful of them, one for each kind of defect.",
  ["include/kigumi/Find_defects.h: ctor", "cli/defects_command.cc: operator()"])
p("Boundaries of solids and of results have no defects but non-manifold vertices and edges",
  "The searches for degenerate and overlapping faces find nothing exactly if the first two conditions on meshes (README.md) are met: all faces have area, and two faces meet in a common vertex, in a common edge or not at all. A mesh that meets them and bounds a set uses every edge equally often in both directions; so neither boundary edges nor inconsistent edges are found in solids. A region that a Boolean operation returns has no isolated vertices, and where operations are right, no defects but non-manifold vertices and edges are found in it; the defects command prints accordingly. The converse does not hold: there are meshes without any of these defects that do not bound a set (a tetrahedron next to one with the inside out).",
  "every soup of triangles, every set that it bounds, every result of a Boolean operation",
  "Infinitely many solids; the tests look at defects of a handful of meshes and not of results.",
  ["include/kigumi/Find_defects.h", "include/kigumi/Extract.h: operator()", "include/kigumi/Boolean_region_builder.h: operator()", "cli/defects_command.cc: operator()", "README.md: Technical details"])
p("Boolean operations of open meshes that are clipped with a common convex region are right",
  "README.md demands of open meshes that they are clipped with a common convex region. Let two meshes without degenerate faces and self-intersections be in an open convex set, apart from edges of faces, and let each cut it into a set of points and the rest. Then a Boolean operation gives no warning, and its result is a mesh that cuts the convex set into the result of the operation on the two sets and the rest, apart from points of the surfaces; bounded_side of the result answers accordingly for points of the convex set. (True if faces of the two meshes meet at the end of the convex set in single points only. False in general: if two triangles have an edge at the end of the convex set in common, the faces around that edge do not say which of the two sets is the larger one, the classification assumes that one is inside of the other around the outside of the convex set, and the union is the smaller set, without a warning, in every execution.)",
  "every pair of such meshes, every open convex set, every operator, every interleaving of all parallel loops, every constrained Delaunay triangulation",
  "Infinitely many meshes and schedules; no test combines open meshes.",
  ["README.md: Technical details", "include/kigumi/Boolean_region_builder.h: ctor, operator()", "include/kigumi/Classify_faces_locally.h: operator()", "include/kigumi/Side_of_triangle_soup.h: operator()"])
p("Written text files are files of their formats with the same mesh",
  "write_off, write_obj and write_ply write files that are OFF, OBJ and PLY files according to definitions of these formats by lines and words that do not mention reader or writer: with the points of the soup, rounded to doubles, and its faces, in their order. So every reader of these formats gets this mesh, not only that of this library. OBJ files have this property whether indices are written as positive or as negative numbers.",
  "every triangle soup (of indices and numbers that fit 64 bits), every printing of doubles that can be read back",
  "Infinitely many soups; the tests read files with the reader that belongs to the writer.",
  ["include/kigumi/io/off.h: write_off", "include/kigumi/io/obj.h: write_obj", "include/kigumi/io/ply.h: write_ply"])
p("The command-line program combines and converts files of all formats",
  "Files with the extensions .off, .obj and .ply are operands of `kigumi boolean` and `kigumi convert`: they stand for the region bounded by their points and the triangles of their polygons; files without faces are no operands. If the program ends with status 0, nothing is printed but the lines about the progress of `kigumi boolean`, other files are unchanged, and each output that fits its device is a file of the format that its name says, with the faces of a region that is the set asked for, apart from points of the surfaces, and with vertices rounded to doubles. If rounding changes nothing the file stands for that region. Scripts of runs evaluate expressions also if operands are text files. Converting a text file to another format keeps the region.",
  "every content of the files, every layout of text files, every choice of formats and options, every interleaving of all parallel loops, every constrained Delaunay triangulation",
  "Infinitely many files, options and schedules; the program is not run by the tests.",
  ["cli/main.cc: main", "cli/boolean_command.cc: operator()", "cli/convert_command.cc: operator()", "cli/utility.h: read_region, write_region", "include/kigumi/Triangle_soup_io.h", "include/kigumi/io/off.h", "include/kigumi/io/obj.h", "include/kigumi/io/ply.h"])
p("Files that have lost their end are not read as another mesh",
  "If a file that the library has written was cut somewhere (as by a device that is full, which the program does not notice), reading it fails and keeps the target, or gives the mesh that was written. (True for .kigumi files, C87. For OFF and PLY files of meshes with faces it is true as long as the last number is lost completely, or nothing but the end of the last line; if the last number has lost some of its digits, a face with another vertex is read. False for OBJ files: cut after any number of faces they are read as the mesh of these faces, and the program ends with status 0 after writing such a file.)",
  "every mesh, every place where the file is cut, all formats",
  "Infinitely many meshes and places; no test reads a file that was cut.",
  ["include/kigumi/io/off.h: write_off, read_off", "include/kigumi/io/ply.h: write_ply, read_ply", "include/kigumi/io/obj.h: write_obj, read_obj", "cli/utility.h: write_region"])
p("Results are regularized",
  "README.md: the result of each Boolean operation is regularized, i.e., the interior of the result is taken first, followed by its closure. Under the conditions of C73 on the operands, the result of every operator is exactly the closure of the interior of the operation on the two sets, whether or not points of surfaces are counted among the points of the operands: the points of the boundary of the result are those of the border of this set, is_empty and is_full hold exactly if it has no points or has all, and bounded_side, where it returns, is right for every point of space, points of the surfaces of the operands included. The same holds for results of expressions of any depth, whose intermediate results are regularized. So regions that are the same set have the same boundary points and give the same answers, however they were computed.",
  "every pair of operands as in C73, every operator, every point, every choice of sets up to points of the surfaces, every interleaving, every constrained Delaunay triangulation, every expression as in C85",
  "Infinitely many operands and points; regularization is about interiors and closures, which no test looks at.",
  ["README.md: Table of Boolean operators", "include/kigumi/Boolean_region_builder.h: operator()", "include/kigumi/Extract.h: operator()", "include/kigumi/Region.h: bounded_side, is_empty, is_full"])
p("Exactly which OBJ files are read, and as what",
  "read_obj returns true exactly for texts in which every line that starts with the word v goes on with three words that are numbers, and in every line that starts with the word f, no word starts with the number 0 before one that does not start with a number of at most 64 bits. Then the points are those of the v lines, and the polygons those of the f lines, up to the first word that does not start with a number, in the order of lines: positive numbers count from the first vertex, negative ones backwards from the last vertex above, and what follows a number in a word does not matter. Otherwise false is returned and the target is kept; so a vertex without three coordinates and a reference to vertex 0 are never overlooked.",
  "every text, every target", "All texts; the tests read a few files.",
  ["include/kigumi/io/obj.h: read_obj"])
p("Adjacency queries are right at every time in the life of a mesh",
  "In every program that constructs, copies, moves, extends, finalises, asks and empties Triangle_mesh objects, a call of faces_around_edge or faces_around_face that returns lists exactly the faces around the edge or face that the mesh has then, and nothing undefined happens. (True if no mesh is asked after it was finalised and then given faces, finalised again or emptied; meshes that were not finalised throw. False otherwise: finalize appends to the index that is there, so once an edge has been answered the answer never changes, faces added later are not found even after finalize is called again, and asking for new vertices is undefined behaviour.)",
  "every program of any length over any number of mesh variables, every sort that sorts",
  "Infinitely many sequences of operations; the tests finalise every mesh once and ask right away.",
  ["include/kigumi/Triangle_mesh.h: constructors, assignments, add_vertex, add_face, finalize, faces_around_edge, faces_around_face, take_triangle_soup"])
p("Several threads can locate points with one region",
  "If any number of threads call aabb_tree() of one soup at the same time (as bounded_side of one region does), in every schedule: no two threads are about to access the cached pointer at once, no null pointer is dereferenced, every execution ends, there is no deadlock, all calls that return give the same tree, and it is that of all faces of the soup, never of a part. A call throws only if memory is short or a face refers to a point that is not there; then the mutex is released, the soup is as before, and other threads go on. With this tree bounded_side gives the same answers as in a program of one thread.",
  "every number of threads, every interleaving, every soup, every point, every moment at which an exception may be thrown",
  "Infinitely many schedules; the tests ask regions from one thread.",
  ["include/kigumi/Triangle_soup.h: aabb_tree", "include/kigumi/Side_of_triangle_soup.h: operator()", "include/kigumi/Region.h: bounded_side"])
p("Exactly which OFF files are read, and as what",
  "read_off returns true exactly for texts whose lines, without blank lines and comments, are: a signature (OFF or one of its variants, with nothing or a comment after it); a line that starts with two numbers; as many lines as the first number says whose first three words are numbers; as many lines as the second number says that start with a number and then as many numbers as it says; and nothing else. Numbers are as long as possible, need no white space between them if the second has a sign, negative ones are taken modulo 2^64, and what is after the last number of a line does not matter. Then the points and polygons are exactly these, in order. Otherwise false is returned and the target is kept; so a file in which a line is missing or one is too many is never read.",
  "every text, every target", "All texts; the tests read a few files.",
  ["include/kigumi/io/off.h: read_off, operator>>(Off_signature)"])
p("Exactly which PLY files are read, and as what",
  "read_ply returns true exactly for texts with a header as in C88 (where numbers of instances may be negative, and are then taken modulo 2^64) that declares what is needed, and then as many lines for each element as declared and no others, where every line of the element vertex and of the element face has all its properties in order: a scalar is a word, the first scalars x, y and z are words that are numbers, a list is a number and as many words, the first list vertex_index or vertex_indices is a number and as many numbers. Numbers of lists and of vertices are as long as possible and need no white space after them; what is after the last property does not matter, and lines of other elements may be anything. Then the points and polygons are exactly these, in order. Otherwise false is returned and the target is kept.",
  "every text, every target", "All texts; the tests read a few files.",
  ["include/kigumi/io/ply.h: read_ply"])
p("Exactly which binary files of regions are read, and as what",
  "read_kigumi_region returns true exactly for bytes that begin with: a byte, the kind; the numbers of vertices and faces, as four bytes below 2^31, the least significant first; each vertex as a byte 0 and three doubles of eight bytes, or another byte and three rational numbers, each a sign byte, and numerator and denominator as a count of bytes and that many bytes, the most significant first, where the denominator is not 0; each face as three numbers of four bytes below 2^31 and its data. Then exactly these bytes are consumed, whatever follows them; the kind is the first byte, and the vertices, faces and data are appended to those of the target. At most one beginning of a file is such, and as one region only. All other bytes are rejected, or end in an exception or a signal. The byte order of the host and what the buffer of the thread held before make no difference. Files written are of this kind; the files that the command-line program takes are these.",
  "every sequence of bytes, host, number type, target and buffer", "All sequences of bytes; the tests read what was just written.",
  ["include/kigumi/Region_io.h: read_kigumi_region", "include/kigumi/Region.h: Read", "include/kigumi/Triangle_soup.h: Read", "include/kigumi/io.h: Read", "include/kigumi/Mesh_indices.h: Read"])
p("Which arguments the command-line programs take, and when they end with status 0",
  "An operand stands for a region if it is \":empty:\" or \":full:\", or the name of a file that can be opened, with extension .kigumi and content that begins with a region of the binary format, or with extension .obj, .off or .ply and content in the grammar of that format with at least one polygon of three corners. Exactly these operands are read, as this region, and an operand stands for one region at most. convert, defects and boolean end with status 0 exactly if the options are accepted, every operand stands for a region, the computation returns, and each output requested can be written. If an operand stands for nothing, the program ends with status 1 and a message, and has neither created nor changed a file, nor printed to standard output anything but what the reader of a text format says there about a file that it refuses; only a .kigumi file read with GMP can kill it instead.",
  "every list of arguments, file system, standard streams, number type and host", "All contents of all files; the tests do not start the program.",
  ["cli/utility.h: read_region", "cli/main.cc: main", "cli/boolean_command.cc: Boolean_command::operator()", "cli/convert_command.cc: Convert_command::operator()", "cli/defects_command.cc: Defects_command::operator()", "include/kigumi/Triangle_soup_io.h: read_triangle_soup", "include/kigumi/Region_io.h: read_kigumi_region"])
p("Regions are values",
  "In a program that constructs, copies, moves, assigns and extends regions, asks them for the sides of points, combines them, reads files to them and catches exceptions, and in which no face is added to a region (through boundary_unsafe() or by reading a file to it) after it was asked or combined and before it is assigned, all answers, exceptions and regions are those of the same program with plain values: a kind, vertices and faces. In particular a point is located with respect to the faces that the region has at this time, whatever happened to it and its copies before. A region that was defined by its boundary and was moved from throws when it is asked, until it is assigned. The condition is needed: after asking, a solid that is read to the same region is not found, and points inside it are reported to be outside.",
  "every program of such operations on any number of regions", "All programs; the tests ask each region once.",
  ["include/kigumi/Region.h: Region", "include/kigumi/Region.h: boundary_unsafe", "include/kigumi/Region.h: bounded_side", "include/kigumi/Triangle_soup.h: aabb_tree", "include/kigumi/Triangle_soup.h: operator=", "include/kigumi/Region_io.h: read_kigumi_region"])
p("Exactly which regions can be written, and how long the files are",
  "A region can be written to a .kigumi file exactly if it has fewer than 2^31 vertices and faces, all indices are below 2^31, every face has data, and at each vertex all coordinates are doubles or all numerators and denominators have fewer than 2^31 bytes. The file then has 9 bytes, 25 for each vertex with double coordinates, 12 for each face, and for each other vertex as many as its numerators and denominators need. Otherwise an exception is thrown. Every region read from a .kigumi file can be written again; one read from a text file exactly if its counts and indices are small enough. If the device has room for the output and coordinates stay finite when rounded, convert ends with status 0 exactly if its input stands for a region and its output can be created and has a format that can hold the region. If a region is too large for the .kigumi file, convert ends with status 1, and what the output file held before is lost; no other file changes.",
  "all regions, files, names, environments, buffering", "Needs regions with 2^31 vertices or numbers of 2 GiB; tests write a few small meshes.",
  ["include/kigumi/Region_io.h: write_kigumi_region", "include/kigumi/Triangle_soup.h: Write", "include/kigumi/io.h: kigumi_write", "include/kigumi/io.h: Write", "include/kigumi/Mesh_indices.h: Write", "cli/utility.h: write_region", "cli/convert_command.cc: operator()"])
p("Ranges of vertices and faces are random-access ranges; bounding boxes",
  "Iterators over the vertices or the faces of a mesh or soup with fewer than 2^63 of them behave like positions: any walk by increments, decrements, additions and subtractions (also of negative numbers) that stays between begin and end ends at the position that integer arithmetic gives, and differences, comparisons and subscripts are those of the positions, without signed overflow. A loop over the range visits every index once, in order, and ends; the indices are valid, and point, face and data do not throw for them, while they throw for the default index. Increments and decrements of indices undo each other for all values, the default index included, and additions are repeated increments. bbox() contains all vertices, used or not, is the smallest box that contains the boxes of their approximations, touches a vertex on each side if coordinates are doubles, and is empty if there are no vertices.",
  "all sizes below 2^63, walks, soups, approximations", "All walks, sizes and points; the tests do not call bbox().",
  ["include/kigumi/Mesh_indices.h: Index", "include/kigumi/Mesh_iterators.h: Vertex_iterator", "include/kigumi/Mesh_iterators.h: Face_iterator", "include/kigumi/Triangle_soup.h: bbox", "include/kigumi/Triangle_mesh.h: bbox", "include/kigumi/Triangle_soup.h: vertices", "include/kigumi/Triangle_mesh.h: faces"])
p("Volumes of solids and of results of Boolean operations",
  "The signed volume that is obtained from the faces of a solid by summing up tetrahedra does not depend on their common apex; it depends only on the set, not on how its boundary is triangulated; it is positive for convex solids. For the results of Boolean operations, whatever the threads do and whatever constrained Delaunay triangulations CGAL gives: the volume of the result of each of the sixteen operators is the combination of the volumes of the operands and of the intersection that the truth table tells, regardless of prefer_first. In particular the volumes of union and intersection (also of separate executions) have the sum of the volumes of the operands, difference and intersection make up the first operand, the union is made up of symmetric difference and intersection, and complements have the opposite volume. This holds exactly, also where faces coincide, under the conditions of C73.",
  "all solids as in C73, operators, executions, triangulations, apexes; for tetrahedra without parallel faces unconditionally", "All solids and executions; the tests compare no volumes.",
  ["include/kigumi/Boolean_region_builder.h: Boolean_region_builder", "include/kigumi/Mix.h: mix", "include/kigumi/Corefine.h: Corefine"])
p("Volumes of results of expressions are additive",
  "Regions denote sets, each with a coefficient: if the coefficients of the sets that contain a point always add up to the same number, apart from points of a surface, then the volumes with these coefficients add up to zero. For expressions of Boolean operations on solids of any shape of which no two have overlapping faces, each expression executed in any way (threads, sorting, triangulations, prefer_first): every linear relation between the sets that the expressions denote is a relation between the volumes of the results. In particular expressions that denote the same set have results of the same volume (the order and grouping of operations does not matter for it), inclusion and exclusion hold for three operands with seven separate executions, and the volume of a region is the sum of the volumes of regions without overlap that make it up.",
  "all regions, coefficients, expressions, operands as in C85, executions, apexes", "All expressions and executions; the tests compare no volumes and no different groupings of operations.",
  ["include/kigumi/Boolean_region_builder.h: Boolean_region_builder", "include/kigumi/Mix.h: mix", "include/kigumi/Extract.h: Extract"])
p("Volumes compare regions: zero only for the empty region, less for proper parts",
  "The volume of every solid whose points have bounded coordinates, of whatever shape, genus or number of components and cavities, is not negative, and it is zero exactly if the kind of the region is empty; for solids with bounded complements it is not positive. If one region denotes a part of the bounded set that another one denotes, its volume is at most the other volume, and equal only if the sets are the same apart from points of the surfaces. Hence for results of expressions of Boolean operations (any execution): a result that denotes a bounded set has volume zero exactly if it is the empty region, that is, if the set has no points off the surfaces. For single operations under the conditions of C73: an intersection has at most the volume of each operand, a union at least, and at most the sum; the union has the volume of the sum exactly if the operands have no point in common, the intersection the volume of the first operand exactly if the second one contains it, and the symmetric difference is the empty region exactly if the operands are the same set.",
  "all bounded solids, operands, operations, expressions, executions, apexes", "All solids and executions; the tests check neither volumes nor that results of operations on nested or disjoint operands are of the right kind in general.",
  ["include/kigumi/Boolean_region_builder.h: Boolean_region_builder", "include/kigumi/Mix.h: mix", "include/kigumi/Extract.h: Extract", "include/kigumi/Region.h: Region::is_empty"])
p("A text file that is refused is refused with one message, about the first line that is to blame",
  "For every text and each of the formats OBJ, OFF and PLY: if the text is in the grammar of the format (C98, C101, C102), the reader prints nothing. Otherwise it prints exactly one line, on the standard error output, or on the standard output for two messages of the OFF reader. The message is about the whole file (it ends too early, or the PLY header lacks an element or a property that is needed), or it is about a line of the file: then every file that starts with the lines up to this one is refused with the same message, whatever follows, and about the lines before it the reader says nothing, or that the file ends too early. The commands convert, defects and boolean print this message, then their own one with the name of the file, end with status 1, and change no file.",
  "all texts, formats, number syntaxes, commands, worlds", "All texts; the tests do not look at messages.",
  ["include/kigumi/io/obj.h: read_obj", "include/kigumi/io/off.h: read_off", "include/kigumi/io/ply.h: read_ply", "cli/utility.h: read_region", "cli/main.cc: main"])
p("Meshes with faces of vertices that do not exist are refused by every operation that looks at them",
  "Neither soups nor readers check the indices of vertices. But if a face of an operand has a corner that is not a vertex of its mesh, every execution of the corefinement of the two operands throws std::out_of_range, whatever the other operand, the numbers of threads, their interleaving and the geometric kernel are; so a Boolean operation on two regions with boundaries has no result, and the command boolean reports the exception, ends with status 1 and changes no file. With an empty or full operand, the result is empty or full if the operation does not depend on the malformed operand, and otherwise the exception is thrown. More generally, selecting the faces of the result throws exactly if a face that is taken has a corner that does not exist. The search for defects throws the exception too: it does not report this defect, and the command defects ends with status 1, with the message of the exception and nothing else. None of this is undefined behaviour.",
  "all soups, regions, operators, environments, interleavings", "All malformed meshes and schedules; the tests have none.",
  ["include/kigumi/Find_coplanar_faces.h: operator(), triangle", "include/kigumi/Corefine.h: Corefine", "include/kigumi/Extract.h: operator()", "include/kigumi/Boolean_region_builder.h: Boolean_region_builder, operator()", "include/kigumi/Find_defects.h: merge_duplicate_vertices", "cli/boolean_command.cc: operator()", "cli/defects_command.cc: operator()"])
p("Boolean operations are reproducible: the faces of a result do not depend on threads, orders or machine",
  "If no four vertices that a face of an operand gets (its corners, and the extreme points of what it has in common with faces of the other operand) are on a circle, there is only one constrained Delaunay triangulation of each face, and two executions of the corefinement of the same operands, with whatever numbers of threads, interleavings, orders of sorting, boxes, lines and planes, make the same triangles (the same corners in the same cyclic order), as many of them, of the same operand and with the same data. Two executions of a Boolean operation on the same solids, manifold where they coincide, give regions of the same kind with the same faces and the same data; only the numbering of vertices and faces may differ. Where triangulations break ties by total orders of the points of the plane, the same holds without the condition on circles for the corefinement, and under the condition of C81 for results. The condition cannot be dropped if ties may be broken in any way: there are two tetrahedra for which the corefinement has two executions, on the same machine, that make different triangles. For such solids, under the condition on circles, two runs of the program, on whatever hosts, that have read regions with the same places and end with status 0 write `.kigumi` files from which regions of the same kind with the same faces are read.",
  "all operands without self-intersections, solids, operators, pairs of environments and executions", "All pairs of schedules and machines; tests compare one run with an expected number.",
  ["include/kigumi/Corefine.h: Corefine ctor, get_left_faces, get_right_faces", "include/kigumi/Triangulation.h: insert_constraint, get_faces", "include/kigumi/Mix.h: operator()", "include/kigumi/Boolean_region_builder.h: operator()", "include/kigumi/parallel_do.h: parallel_do"])
p("The order of the operands, and which is preferred, matter only for the operator and for face data",
  "Under the conditions of C113, an execution of a Boolean operation on two solids and an execution on the same solids in the other order, with an operator that does the same for exchanged arguments and with the other preference, give regions of the same kind with the same faces (the same corners in the same cyclic order) and the same data; threads, orders of sorting and machines may differ. The two results of one execution that differ only in which operand is preferred have the same kind and the same faces; only data of coincident faces differ. Hence union, intersection and symmetric difference commute, with whatever preferences, apart from data. Two runs of the program that have read the same regions in different order and have been asked for operations that differ only in the order of their arguments write `.kigumi` files from which regions of the same kind with the same faces are read.",
  "all solids, operators, preferences, pairs of environments and executions", "Relates two runs of the whole pipeline for all inputs; left and right operands are treated by different code at several places (point ids, sorted records, tags).",
  ["include/kigumi/Corefine.h: Corefine ctor, get_left_faces, get_right_faces", "include/kigumi/Mix.h: operator()", "include/kigumi/Boolean_region_builder.h: Boolean_region_builder ctor, operator()", "include/kigumi/Extract.h", "cli/boolean_command.cc: operator()"])
p("Operands that need no cutting: results consist of whole faces, and a solid with itself gives itself or nothing",
  "If the faces of two solids meet only in common vertices, edges or faces, and the solids are manifold where they coincide, then, in every execution and for every operator and preference, the faces of the result are exactly the faces of the operands that the operator selects from their position with respect to the other solid, whole, as they are or inverted, with the data of the face; no face is cut. If both operands are the same solid with two faces at every edge, the union and the intersection (and every operator that gives the set itself) have the same kind, the same faces and the same data as the operand, and the difference and the symmetric difference are the empty region; operators that give the whole space give the full region.",
  "all solids that conform to each other, operators, preferences, environments and executions", "Which faces coincide, and which triangulations are made, depends on the operands; tests take two or three pairs of coincident meshes.",
  ["include/kigumi/Corefine.h: Corefine ctor, get_left_faces, get_right_faces", "include/kigumi/Find_coplanar_faces.h", "include/kigumi/Mix.h: operator()", "include/kigumi/Boolean_region_builder.h: operator()", "include/kigumi/Extract.h"])
p("Operations on complements have the same faces as the operations on the solids that do the same",
  "If some of two boundary-defined solids are replaced by their complements (the same points, inverted faces, the same data) and the operator by the one that gives the same set for them, e.g. the difference by the intersection with the complement, or the union by \"not both\" on the complements, every execution with the one pair and every execution with the other give regions of the same kind with the same faces, the same orientations and the same data, for either preference. The solids must be manifold where they coincide, and no four vertices of a face may be on a circle. Likewise the union and the complement of the intersection of the complements (De Morgan). The same holds for the .kigumi files written by two runs of the program.",
  "all pairs of solids, choices of operands to complement, operators, preferences, environments and executions", "Inverted faces take different paths through the classification and the extraction; tests compare single results with recorded ones.",
  ["include/kigumi/Corefine.h: Corefine ctor", "include/kigumi/Mix.h: operator()", "include/kigumi/Classify_faces_locally.h", "include/kigumi/Boolean_region_builder.h: operator()", "include/kigumi/Extract.h", "cli/boolean_command.cc: operator()"])
with open('/verif/properties.jsonl','w') as f:
    for o in P: f.write(json.dumps(o)+"\n")
print(len(P))

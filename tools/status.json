{
"C01": {
"status": "proved",
"note": "All 320 table entries, and the meaning of the operators as set operations."
},
"C02": {
"status": "proved",
"note": "Every well-formed mixed soup."
},
"C03": {
"status": "proved",
"note": ""
},
"C04": {
"status": "proved",
"note": "Extraction and (C07, C62) the producers of the mixed soup; C86 puts them together, from the operands to the result."
},
"C05": {
"status": "proved",
"note": "Relative to a correctly classified arrangement (hypothesis hmix)."
},
"C06": {
"status": "proved",
"note": ""
},
"C07": {
"status": "proved",
"note": ""
},
"C08": {
"status": "proved",
"note": ""
},
"C09": {
"status": "proved",
"note": ""
},
"C10": {
"status": "proved",
"note": "Moved-from objects and boundary_unsafe() are excluded; the former shown to violate the invariant."
},
"C104": {
"status": "proved",
"note": "EndsWithMessage and Dies say what is printed. The texts of readers are a parameter (complaint); two messages of the OFF reader go to the standard output (off.h:149, 164)."
},
"C11": {
"status": "partial",
"note": "Points of the surface always give ON_BOUNDARY (C11_on_surface, every soup). The converse is proved for soups that bound a region without overlapping areas (C11_boundary_iff_partial) and is false for open soups: C11_full_claim_false gives an open square and a point of its plane."
},
"C111": {
"status": "proved",
"note": "Spec/Messages lists the messages by format and output. That the message about a line is about the first line to blame is part of C111_messages. Found: two messages of the OFF reader go to the standard output (off.h:149, 164)."
},
"C112": {
"status": "proved",
"note": "C112_corefine, C112_builder (two boundaries), C112_trivial (an empty or full operand), C112_extract (selection of faces), C112_defects, C112_program (the command; FailsAs says that a failure of the builder is that of one of its parts); C112_consistent: the assumptions can be had."
},
"C12": {
"status": "proved",
"note": "C12_side under the contract of Env.Valid; C12_sound needs no assumption on overlaps; C12_overlap_false shows that the assumption of C12_side is needed."
},
"C13": {
"status": "proved",
"note": "Both overloads (stateful/stateless), all interleavings of the modelled atomic steps."
},
"C14": {
"status": "proved",
"note": ""
},
"C15": {
"status": "proved",
"note": ""
},
"C16": {
"status": "proved",
"note": ""
},
"C17": {
"status": "proved",
"note": ""
},
"C18": {
"status": "partial",
"note": "False as stated: the stateless parallel_do uses hardware_concurrency (C18_stateless_exceeds, C18_full_claim_false). Proved for the stateful overload, the sort and the tree builder."
},
"C19": {
"status": "partial",
"note": "False as stated: an operation run on the calling thread after another such operation uses dangling points (C19_false_single_thread, C19_false_single_pair). C19_histories_partial: exactly the histories with at least two operations that run their loop on the calling thread are affected."
},
"C20": {
"status": "proved",
"note": ""
},
"C21": {
"status": "proved",
"note": ""
},
"C22": {
"status": "partial",
"note": "False as stated: faces added after the first query are missing from the cached index (C22_full_claim_false). Proved when no face is added after the index is built."
},
"C23": {
"status": "proved",
"note": "Includes that edges of a mesh with an unused trailing vertex throw (C23_unused_vertex_throws)."
},
"C24": {
"status": "proved",
"note": ""
},
"C25": {
"status": "proved",
"note": "Termination, exactness and absence of races; the per-access interleaving version is in Proofs/Local."
},
"C26": {
"status": "proved",
"note": "Complete when no warning is reported; C26_needs_no_warning shows the hypothesis is needed."
},
"C27": {
"status": "proved",
"note": "Interleaving semantics; see C67 for the race on the tags."
},
"C28": {
"status": "proved",
"note": "C28_geometric states it for faces in space (rational coordinates, real angles); C28_right_tags for abstract cyclic orders."
},
"C29": {
"status": "proved",
"note": "CGAL's base1/base2 by contract (IsBase)."
},
"C30": {
"status": "partial",
"note": "False for an edge with a single face (C30_single_face_false); proved for edges with two or more faces."
},
"C31": {
"status": "proved",
"note": "For operands whose faces have three different corners and are not repeated; both hypotheses shown to be needed (C31_repeated_faces_race, C31_degenerate_opposite)."
},
"C32": {
"status": "proved",
"note": "Boxes in the tree and boxes of queries are independent closed boxes; C32_faceBox shows that face_bbox encloses the triangle."
},
"C33": {
"status": "proved",
"note": "Stated on Face_face_intersection::operator() for non-collinear triangles whose ids are in range; closed triangles as convex combinations over the rationals."
},
"C34": {
"status": "proved",
"note": "Membership is an equivalence with 'the relative interiors meet in exactly one point'; the codes of the result are the bit patterns of both simplices."
},
"C35": {
"status": "proved",
"note": "Every finite sequence of queries from an empty cache; ids in range."
},
"C36": {
"status": "proved",
"note": ""
},
"C38": {
"status": "proved",
"note": "Lists checked from the start; C38_late_check shows that switching the check on later does not find earlier points."
},
"C40": {
"status": "partial",
"note": "False as stated: C40_full_claim_false proves that a file cut within a rational coordinate makes the reader divide by zero (exception with Boost, process killed with GMP). Proved: no proper prefix is ever accepted (C40_never_accepted, every region, cut point, target and buffer), and every cut outside vertices stored as rationals returns false (C40_rejected_partial), hence every cut if all coordinates are doubles (C40_doubles_partial)."
},
"C41": {
"status": "partial",
"note": "False as stated: C41_full_claim_false (reading appends to a target with faces), C41_failed_read_false (a failed read changes kind and boundary). Proved: the exact effect on any target (C41_appends), and replacement for targets without vertices and faces (C41_blank_target_partial)."
},
"C42": {
"status": "partial",
"note": "False as stated: C42_full_claim_false (unknown kinds, boundary regions without faces, empty regions with faces, indices out of range are accepted). Proved: valid regions that were written are read as valid regions (C42_written_partial); what holds of any accepted bytes (C42_any_bytes_partial)."
},
"C51": {
"status": "partial",
"note": "False as stated: no reader checks indices against the number of vertices, so OBJ, OFF and PLY texts with faces of vertices that do not exist are read successfully (C51_obj_false, C51_off_false, C51_ply_false). Proved: texts whose polygons refer to vertices of the text, and all written files of valid soups, give valid faces."
},
"C52": {
"status": "partial",
"note": "Proved for every OBJ text, and for successful reads of OFF and PLY. False for failing reads of OFF and PLY (C52_off_false, C52_ply_false): the number of vertices of a face is not compared with the line, and the reader stores that many indices although the stream has already failed."
},
"C53": {
"status": "partial",
"note": "Names, extensions, operators, warnings, frame, exit status: proved (C53_meaning … C53_boolean_sets). That status 0 implies complete output files is false: the writers ask good() before the buffer reaches the device (C53_full_claim_false, C53_buffered_output_unreported); C53_complete_output_partial says when the file is complete. Boost.Program_options is a parameter. C53_usage: refused options. The lines about the progress on the standard output are part of C53_boolean_files."
},
"C60": {
"status": "proved",
"note": "is_connected on the graph with no vertices throws (C60_connectivity_empty_throws)."
},
"C61": {
"status": "proved",
"note": ""
},
"C62": {
"status": "proved",
"note": "CGAL's constrained triangulation by its operations; the pieces it produces are a parameter."
},
"C63": {
"status": "proved",
"note": "Polygons of two or more corners with distinct ids; the triangulation refuses crossing constraints."
},
"C64": {
"status": "proved",
"note": "Sharing a triangle edge is equivalent to being consecutive (cyclically); no exception from the static vectors of capacity 6."
},
"C66": {
"status": "partial",
"note": "False as stated: the loop condition reads the exception pointer without the lock that its writers hold (C66_race_reachable). Proved for all other shared variables, and fully when no body throws."
},
"C67": {
"status": "partial",
"note": "False for local classification (C67_local_race); proved for the global pass (C67_global_no_race)."
},
"C69": {
"status": "proved",
"note": "C69_all_or_nothing allows what a reader prints to the standard output before it refuses a file: the OFF reader does so (off.h:149, 164), unlike the others. The texts of readers are a parameter (complaint)."
},
"C70": {
"status": "proved",
"note": "Corefined is a hypothesis here; C73 derives it from the corefinement."
},
"C73": {
"status": "proved",
"note": "General position is part of the statement; constrained Delaunay triangulations are given by contract, as are exact constructions, boxes and sorting."
},
"C74": {
"status": "proved",
"note": "Contracts of CGAL, trees and sorting as hypotheses (Env.Valid, shown satisfiable)."
},
"C75": {
"status": "partial",
"note": "False as stated (C75_full_claim_false: three disjoint tetrahedral beams and the origin). Proved: whenever some centroid is visible from the point (C75_visible_partial), for all convex regions (C75_convex); exact condition for the exception (C75_throws_iff)."
},
"C77": {
"status": "partial",
"note": "False as stated (C77_full_claim_false: three disjoint beams and a small tetrahedron between them, every execution throws). Proved: returns if from every point off a surface some centroid is visible (C77_returns_partial, C77_built_partial), for all convex operands (C77_convex); the only possible reason for a failure (C77_fails_only_tied)."
},
"C80": {
"status": "partial",
"note": "False in general: C80_full_claim_false is a witness in which every execution loses a tetrahedron (with a warning); C80_silently_wrong is a witness in which every execution returns a wrong symmetric difference without any warning. C80_boolean_partial is the claim for operands that are manifold where faces coincide."
},
"C82": {
"status": "partial",
"note": "False as stated (C82_full_claim_false): for two tetrahedra that touch in a square, every execution that returns gives a wrong union or a wrong intersection (C82_wrong), because the square is divided along different diagonals. True, without warnings, if faces that look into opposite directions have no four corners of their common part on a circle (C82_boolean_partial; C81_boolean for other orders). The order by two directions is CGAL's as far as known; its source is not part of the repository."
},
"C86": {
"status": "proved",
"note": "Environments as in C73 and C81."
},
"C87": {
"status": "proved",
"note": "C87_boolean: two solids, every output. C87_step, C87_script: results as operands of further runs. C87_stored: what is written can be read. C87_convex: convex solids, status 0. C87_consistent: such an environment exists; Complement.complement: a concrete run."
},
"C88": {
"status": "proved",
"note": "C88_read: every PLY file (any elements and properties in any order, comments, any white space, signs) is read. C88_accepts: what is accepted has a header with what is needed and as many lines as declared. C88_refuses: files without what is needed are refused. Layout: a concrete file."
},
"C89": {
"status": "proved",
"note": "C89_off, C89_obj: every file is read. C89_off_signature: nothing without a signature is. Layout: concrete files."
},
"C90": {
"status": "partial",
"note": "False for OBJ (C90_obj_false: faces lose vertices without a message). C90_off_partial, C90_ply_partial: the claim for OFF and PLY."
},
"C93": {
"status": "partial",
"note": "proved if faces of the two meshes meet outside of the convex set in single points only (C93_boolean_partial, C93_side_partial; C93_panels_partial with existence of executions for any two triangles that cut the set). The statement without this condition is false: C93_common_edge_false, C93_full_claim_false (two triangles with a common edge at the end of the convex set; the union is wrong in every execution, without a warning)."
},
"C94": {
"status": "proved",
"note": "The definitions of the formats are those of C88 and C89. Doubles are abstract; Lawful says that what is printed is read back."
},
"C95": {
"status": "proved",
"note": "Relative to Library (C87) and TextLibrary: the environment reads and writes by the models of the readers and writers; NaN, infinities and translation of ends of lines are not considered. Results of Boolean operations under the conditions of C73 and C87."
},
"C96": {
"status": "partial",
"note": "C96_off_partial, C96_ply_partial: refused if the last number is lost completely. C96_off_digits, C96_ply_digits: what is read otherwise (the same mesh if only the end of the line is missing). False in general: C96_full_claim_false, C96_obj_false, Text95.C96_program_false."
},
"C99": {
"status": "partial",
"note": "False as stated: faces added after the first finalize are not found, also after another finalize (C99_full_claim_false), and queries may then be undefined behaviour (C99_defined_false). Proved for every program in which no mesh is asked after it was finalised and then changed, finalised again or emptied."
}
}
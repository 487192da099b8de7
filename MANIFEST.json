{
 "claims": [
  {
   "property": "C01",
   "status": "proved",
   "theorems": [
    "Kigumi.Props.C01_truth_is_set_operation",
    "Kigumi.Props.C01_selection",
    "Kigumi.Props.C01_apply"
   ],
   "note": "All 320 table entries, and the meaning of the operators as set operations."
  },
  {
   "property": "C02",
   "status": "proved",
   "theorems": [
    "Kigumi.Props.C02_extract_faces"
   ],
   "note": "Every well-formed mixed soup."
  },
  {
   "property": "C03",
   "status": "proved",
   "theorems": [
    "Kigumi.Props.C03_extract_compact"
   ],
   "note": ""
  },
  {
   "property": "C04",
   "status": "proved",
   "theorems": [
    "Kigumi.Props.C04_extract_data"
   ],
   "note": "Extraction and (C07, C62) the producers of the mixed soup; C86 puts them together, from the operands to the result."
  },
  {
   "property": "C05",
   "status": "proved",
   "theorems": [
    "Kigumi.Props.C05_boolean_result_correct",
    "Kigumi.Props.C05_represents_unique"
   ],
   "note": "Relative to a correctly classified arrangement (hypothesis hmix)."
  },
  {
   "property": "C06",
   "status": "proved",
   "theorems": [
    "Kigumi.Props.C06_no_faces",
    "Kigumi.Props.C06_throw_only_if_inconsistent"
   ],
   "note": ""
  },
  {
   "property": "C07",
   "status": "proved",
   "theorems": [
    "Kigumi.Props.C07_empty_full_operands"
   ],
   "note": ""
  },
  {
   "property": "C08",
   "status": "proved",
   "theorems": [
    "Kigumi.Props.C08_compl_swap_meaning",
    "Kigumi.Props.C08_complement",
    "Kigumi.Props.C08_exchange"
   ],
   "note": ""
  },
  {
   "property": "C09",
   "status": "proved",
   "theorems": [
    "Kigumi.Props.C09_emitted_count",
    "Kigumi.Props.C09_coincident_once"
   ],
   "note": ""
  },
  {
   "property": "C10",
   "status": "proved",
   "theorems": [
    "Kigumi.Props.C10_empty_soup_throws",
    "Kigumi.Props.C10_region_invariant",
    "Kigumi.Props.C10_kind_iff_faces",
    "Kigumi.Props.C10_invariant_lost_by_move"
   ],
   "note": "Moved-from objects and boundary_unsafe() are excluded; the former shown to violate the invariant."
  },
  {
   "property": "C11",
   "status": "partial",
   "theorems": [
    "Kigumi.Props.C11_on_surface",
    "Kigumi.Props.C11_boundary_iff_partial",
    "Kigumi.Props.C11_full_claim_false"
   ],
   "note": "Points of the surface always give ON_BOUNDARY (C11_on_surface, every soup). The converse is proved for soups that bound a region without overlapping areas (C11_boundary_iff_partial) and is false for open soups: C11_full_claim_false gives an open square and a point of its plane."
  },
  {
   "property": "C12",
   "status": "proved",
   "theorems": [
    "Kigumi.Props.C12_sound",
    "Kigumi.Props.C12_side",
    "Kigumi.Props.C12_empty_full",
    "Kigumi.Props.C12_overlap_false"
   ],
   "note": "C12_side under the contract of Env.Valid; C12_sound needs no assumption on overlaps; C12_overlap_false shows that the assumption of C12_side is needed."
  },
  {
   "property": "C13",
   "status": "proved",
   "theorems": [
    "Kigumi.Props.C13_exactly_once",
    "Kigumi.Props.C13_collect",
    "Kigumi.Props.C13_reduce"
   ],
   "note": "Both overloads (stateful/stateless), all interleavings of the modelled atomic steps."
  },
  {
   "property": "C14",
   "status": "proved",
   "theorems": [
    "Kigumi.Props.C14_exceptions",
    "Kigumi.Props.C14_visited",
    "Kigumi.Props.C14_success"
   ],
   "note": ""
  },
  {
   "property": "C15",
   "status": "proved",
   "theorems": [
    "Kigumi.Props.C15_terminates",
    "Kigumi.Props.C15_has_result"
   ],
   "note": ""
  },
  {
   "property": "C16",
   "status": "proved",
   "theorems": [
    "Kigumi.Props.C16_sorts",
    "Kigumi.Props.C16_terminates",
    "Kigumi.Props.C16_disjoint"
   ],
   "note": ""
  },
  {
   "property": "C17",
   "status": "proved",
   "theorems": [
    "Kigumi.Props.C17_scopes",
    "Kigumi.Props.C17_thread_count"
   ],
   "note": ""
  },
  {
   "property": "C18",
   "status": "partial",
   "theorems": [
    "Kigumi.Props.C18_thread_bound_partial",
    "Kigumi.Props.C18_some_thread_partial",
    "Kigumi.Props.C18_stateless_exceeds",
    "Kigumi.Props.C18_full_claim_false"
   ],
   "note": "False as stated: the stateless parallel_do uses hardware_concurrency (C18_stateless_exceeds, C18_full_claim_false). Proved for the stateful overload, the sort and the tree builder."
  },
  {
   "property": "C19",
   "status": "partial",
   "theorems": [
    "Kigumi.Props.C19_false_single_thread",
    "Kigumi.Props.C19_false_single_pair",
    "Kigumi.Props.C19_histories_partial"
   ],
   "note": "False as stated: an operation run on the calling thread after another such operation uses dangling points (C19_false_single_thread, C19_false_single_pair). C19_histories_partial: exactly the histories with at least two operations that run their loop on the calling thread are affected."
  },
  {
   "property": "C20",
   "status": "proved",
   "theorems": [
    "Kigumi.Props.C20_query_exact",
    "Kigumi.Props.C20_geometric"
   ],
   "note": ""
  },
  {
   "property": "C21",
   "status": "proved",
   "theorems": [
    "Kigumi.Props.C21_deterministic",
    "Kigumi.Props.C21_no_races",
    "Kigumi.Props.C21_layout"
   ],
   "note": ""
  },
  {
   "property": "C22",
   "status": "partial",
   "theorems": [
    "Kigumi.Props.C22_index_describes_faces_partial",
    "Kigumi.Props.C22_full_claim_false"
   ],
   "note": "False as stated: faces added after the first query are missing from the cached index (C22_full_claim_false). Proved when no face is added after the index is built."
  },
  {
   "property": "C23",
   "status": "proved",
   "theorems": [
    "Kigumi.Props.C23_faces_around_edge",
    "Kigumi.Props.C23_unused_vertex_throws",
    "Kigumi.Props.C23_finalize_by_parallel_sort"
   ],
   "note": "Includes that edges of a mesh with an unused trailing vertex throw (C23_unused_vertex_throws)."
  },
  {
   "property": "C24",
   "status": "proved",
   "theorems": [
    "Kigumi.Props.C24_faces_around_face"
   ],
   "note": ""
  },
  {
   "property": "C25",
   "status": "proved",
   "theorems": [
    "Kigumi.Props.C25_propagation"
   ],
   "note": "Termination, exactness and absence of races; the per-access interleaving version is in Proofs/Local."
  },
  {
   "property": "C26",
   "status": "proved",
   "theorems": [
    "Kigumi.Props.C26_all_classified",
    "Kigumi.Props.C26_global_finishes",
    "Kigumi.Props.C26_needs_no_warning"
   ],
   "note": "Complete when no warning is reported; C26_needs_no_warning shows the hypothesis is needed."
  },
  {
   "property": "C27",
   "status": "proved",
   "theorems": [
    "Kigumi.Props.C27_order_independent"
   ],
   "note": "Interleaving semantics; see C67 for the race on the tags."
  },
  {
   "property": "C28",
   "status": "proved",
   "theorems": [
    "Kigumi.Props.C28_right_tags",
    "Kigumi.Props.C28_all_faces_around_edge",
    "Kigumi.Props.C28_edge_consistent",
    "Kigumi.Props.C28_geometric"
   ],
   "note": "C28_geometric states it for faces in space (rational coordinates, real angles); C28_right_tags for abstract cyclic orders."
  },
  {
   "property": "C29",
   "status": "proved",
   "theorems": [
    "Kigumi.Props.C29_order_by_angle",
    "Kigumi.Props.C29_degenerate_throws",
    "Kigumi.Props.C29_strict_weak_order",
    "Kigumi.Props.C29_sorted"
   ],
   "note": "CGAL's base1/base2 by contract (IsBase)."
  },
  {
   "property": "C30",
   "status": "partial",
   "theorems": [
    "Kigumi.Props.C30_entries",
    "Kigumi.Props.C30_coincidence_tags_partial",
    "Kigumi.Props.C30_single_face_false"
   ],
   "note": "False for an edge with a single face (C30_single_face_false); proved for edges with two or more faces."
  },
  {
   "property": "C31",
   "status": "proved",
   "theorems": [
    "Kigumi.Props.C31_found",
    "Kigumi.Props.C31_no_races",
    "Kigumi.Props.C31_repeated_faces_race",
    "Kigumi.Props.C31_degenerate_opposite"
   ],
   "note": "For operands whose faces have three different corners and are not repeated; both hypotheses shown to be needed (C31_repeated_faces_race, C31_degenerate_opposite)."
  },
  {
   "property": "C32",
   "status": "proved",
   "theorems": [
    "Kigumi.Props.C32_pairs",
    "Kigumi.Props.C32_faceBox",
    "Kigumi.Props.C32_complete"
   ],
   "note": "Boxes in the tree and boxes of queries are independent closed boxes; C32_faceBox shows that face_bbox encloses the triangle."
  },
  {
   "property": "C33",
   "status": "proved",
   "theorems": [
    "Kigumi.FaceFace.C33_detection"
   ],
   "note": "Stated on Face_face_intersection::operator() for non-collinear triangles whose ids are in range; closed triangles as convex combinations over the rationals."
  },
  {
   "property": "C34",
   "status": "proved",
   "theorems": [
    "Kigumi.FaceFace.C34_corners"
   ],
   "note": "Membership is an equivalence with 'the relative interiors meet in exactly one point'; the codes of the result are the bit patterns of both simplices."
  },
  {
   "property": "C35",
   "status": "proved",
   "theorems": [
    "Kigumi.FaceFace.C35_orientation"
   ],
   "note": "Every finite sequence of queries from an empty cache; ids in range."
  },
  {
   "property": "C36",
   "status": "proved",
   "theorems": [
    "Kigumi.Props.C36_join_meet",
    "Kigumi.Props.C36_project",
    "Kigumi.Props.C36_join_injective",
    "Kigumi.Props.C36_dimension",
    "Kigumi.Props.C36_edge_vertices",
    "Kigumi.Props.C36_faces",
    "Kigumi.Props.C36_is_left"
   ],
   "note": ""
  },
  {
   "property": "C37",
   "status": "proved",
   "theorems": [
    "Kigumi.PointInserter.C37_points",
    "Kigumi.PointInserter.C37_unique",
    "Kigumi.PointInserter.C37_operands"
   ],
   "note": ""
  },
  {
   "property": "C38",
   "status": "proved",
   "theorems": [
    "Kigumi.Props.C38_merging",
    "Kigumi.Props.C38_stable",
    "Kigumi.Props.C38_operands",
    "Kigumi.Props.C38_late_check",
    "Kigumi.Props.C38_history"
   ],
   "note": "Lists checked from the start; C38_late_check shows that switching the check on later does not find earlier points."
  },
  {
   "property": "C39",
   "status": "proved",
   "theorems": [
    "Kigumi.IO.C39_round_trip",
    "Kigumi.IO.C39_portable"
   ],
   "note": ""
  },
  {
   "property": "C40",
   "status": "partial",
   "theorems": [
    "Kigumi.IO.C40_never_accepted",
    "Kigumi.IO.C40_rejected_partial",
    "Kigumi.IO.C40_doubles_partial",
    "Kigumi.IO.C40_full_claim_false"
   ],
   "note": "False as stated: C40_full_claim_false proves that a file cut within a rational coordinate makes the reader divide by zero (exception with Boost, process killed with GMP). Proved: no proper prefix is ever accepted (C40_never_accepted, every region, cut point, target and buffer), and every cut outside vertices stored as rationals returns false (C40_rejected_partial), hence every cut if all coordinates are doubles (C40_doubles_partial)."
  },
  {
   "property": "C41",
   "status": "partial",
   "theorems": [
    "Kigumi.IO.C41_appends",
    "Kigumi.IO.C41_blank_target_partial",
    "Kigumi.IO.C41_full_claim_false",
    "Kigumi.IO.C41_failed_read_false"
   ],
   "note": "False as stated: C41_full_claim_false (reading appends to a target with faces), C41_failed_read_false (a failed read changes kind and boundary). Proved: the exact effect on any target (C41_appends), and replacement for targets without vertices and faces (C41_blank_target_partial)."
  },
  {
   "property": "C42",
   "status": "partial",
   "theorems": [
    "Kigumi.IO.C42_written_partial",
    "Kigumi.IO.C42_any_bytes_partial",
    "Kigumi.IO.C42_full_claim_false"
   ],
   "note": "False as stated: C42_full_claim_false (unknown kinds, boundary regions without faces, empty regions with faces, indices out of range are accepted). Proved: valid regions that were written are read as valid regions (C42_written_partial); what holds of any accepted bytes (C42_any_bytes_partial)."
  },
  {
   "property": "C43",
   "status": "proved",
   "theorems": [
    "Kigumi.IO.C43_cast",
    "Kigumi.IO.C43_host",
    "Kigumi.IO.C43_write_read",
    "Kigumi.IO.C43_read_fits"
   ],
   "note": ""
  },
  {
   "property": "C44",
   "status": "proved",
   "theorems": [
    "Kigumi.Text.C44_round_trip"
   ],
   "note": ""
  },
  {
   "property": "C45",
   "status": "proved",
   "theorems": [
    "Kigumi.Text.C45_round_trip"
   ],
   "note": ""
  },
  {
   "property": "C46",
   "status": "proved",
   "theorems": [
    "Kigumi.Text.C46_round_trip"
   ],
   "note": ""
  },
  {
   "property": "C47",
   "status": "proved",
   "theorems": [
    "Kigumi.Text.C47_obj",
    "Kigumi.Text.C47_off",
    "Kigumi.Text.C47_ply"
   ],
   "note": ""
  },
  {
   "property": "C48",
   "status": "proved",
   "theorems": [
    "Kigumi.Text.C48_obj",
    "Kigumi.Text.C48_off",
    "Kigumi.Text.C48_ply"
   ],
   "note": ""
  },
  {
   "property": "C49",
   "status": "proved",
   "theorems": [
    "Kigumi.Text.C49_obj_lines",
    "Kigumi.Text.C49_off_lines",
    "Kigumi.Text.C49_obj",
    "Kigumi.Text.C49_off"
   ],
   "note": ""
  },
  {
   "property": "C50",
   "status": "proved",
   "theorems": [
    "Kigumi.Text.C50_off",
    "Kigumi.Text.C50_ply"
   ],
   "note": ""
  },
  {
   "property": "C51",
   "status": "partial",
   "theorems": [
    "Kigumi.Text.C51_obj_false",
    "Kigumi.Text.C51_off_false",
    "Kigumi.Text.C51_ply_false",
    "Kigumi.Text.C51_valid_partial",
    "Kigumi.Text.C51_written_partial"
   ],
   "note": "False as stated: no reader checks indices against the number of vertices, so OBJ, OFF and PLY texts with faces of vertices that do not exist are read successfully (C51_obj_false, C51_off_false, C51_ply_false). Proved: texts whose polygons refer to vertices of the text, and all written files of valid soups, give valid faces."
  },
  {
   "property": "C52",
   "status": "partial",
   "theorems": [
    "Kigumi.Text.C52_obj",
    "Kigumi.Text.C52_success_partial",
    "Kigumi.Text.C52_off_false",
    "Kigumi.Text.C52_ply_false"
   ],
   "note": "Proved for every OBJ text, and for successful reads of OFF and PLY. False for failing reads of OFF and PLY (C52_off_false, C52_ply_false): the number of vertices of a face is not compared with the line, and the reader stores that many indices although the stream has already failed."
  },
  {
   "property": "C53",
   "status": "partial",
   "theorems": [
    "Kigumi.Props.C53_meaning",
    "Kigumi.Props.C53_read",
    "Kigumi.Props.C53_write_unsupported",
    "Kigumi.Props.C53_exit_status",
    "Kigumi.Props.C53_exception_reported",
    "Kigumi.Props.C53_boolean_succeeds_iff",
    "Kigumi.Props.C53_boolean_files",
    "Kigumi.Props.C53_boolean_frame",
    "Kigumi.Props.C53_usage",
    "Kigumi.Props.C53_convert",
    "Kigumi.Props.C53_complete_output_partial",
    "Kigumi.Props.C53_buffered_output_unreported",
    "Kigumi.Props.C53_unbuffered_reported",
    "Kigumi.Props.C53_no_warning_for_trivial_operands",
    "Kigumi.Props.C53_warnings_of_mix",
    "Kigumi.Props.C53_boolean_sets",
    "Kigumi.Props.C53_full_claim_false"
   ],
   "note": "Names, extensions, operators, warnings, frame, exit status: proved (C53_meaning … C53_boolean_sets). That status 0 implies complete output files is false: the writers ask good() before the buffer reaches the device (C53_full_claim_false, C53_buffered_output_unreported); C53_complete_output_partial says when the file is complete. Boost.Program_options is a parameter. C53_usage: refused options. The lines about the progress on the standard output are part of C53_boolean_files."
  },
  {
   "property": "C54",
   "status": "proved",
   "theorems": [
    "Kigumi.Props.C54_merge"
   ],
   "note": ""
  },
  {
   "property": "C55",
   "status": "proved",
   "theorems": [
    "Kigumi.Props.C55_isolated",
    "Kigumi.Props.C55_bad_index"
   ],
   "note": ""
  },
  {
   "property": "C56",
   "status": "proved",
   "theorems": [
    "Kigumi.Props.C56_lists",
    "Kigumi.Props.C56_partition",
    "Kigumi.Props.C56_edges"
   ],
   "note": ""
  },
  {
   "property": "C57",
   "status": "proved",
   "theorems": [
    "Kigumi.Props.C57_nonManifoldVertices"
   ],
   "note": ""
  },
  {
   "property": "C58",
   "status": "proved",
   "theorems": [
    "Kigumi.Props.C58_trivial",
    "Kigumi.Props.C58_nonTrivial",
    "Kigumi.Props.C58_corners"
   ],
   "note": ""
  },
  {
   "property": "C59",
   "status": "proved",
   "theorems": [
    "Kigumi.Props.C59_faces",
    "Kigumi.Props.C59_overlaps"
   ],
   "note": ""
  },
  {
   "property": "C60",
   "status": "proved",
   "theorems": [
    "Kigumi.Props.C60_storage",
    "Kigumi.Props.C60_queries",
    "Kigumi.Props.C60_connectivity",
    "Kigumi.Props.C60_connectivity_empty_throws"
   ],
   "note": "is_connected on the graph with no vertices throws (C60_connectivity_empty_throws)."
  },
  {
   "property": "C61",
   "status": "proved",
   "theorems": [
    "Kigumi.Props.C61_merge",
    "Kigumi.Props.C61_global"
   ],
   "note": ""
  },
  {
   "property": "C62",
   "status": "proved",
   "theorems": [
    "Kigumi.Props.C62_assembly",
    "Kigumi.Props.C62_no_empty_entry",
    "Kigumi.Props.C62_missing"
   ],
   "note": "CGAL's constrained triangulation by its operations; the pieces it produces are a parameter."
  },
  {
   "property": "C63",
   "status": "proved",
   "theorems": [
    "Kigumi.Props.C63_border",
    "Kigumi.Props.C63_constraints"
   ],
   "note": "Polygons of two or more corners with distinct ids; the triangulation refuses crossing constraints."
  },
  {
   "property": "C64",
   "status": "proved",
   "theorems": [
    "Kigumi.FaceFace.C64_cyclic",
    "Kigumi.FaceFace.C64_transversal"
   ],
   "note": "Sharing a triangle edge is equivalent to being consecutive (cyclically); no exception from the static vectors of capacity 6."
  },
  {
   "property": "C65",
   "status": "proved",
   "theorems": [
    "Kigumi.Props.C65_grouping",
    "Kigumi.Props.C65_partition"
   ],
   "note": ""
  },
  {
   "property": "C66",
   "status": "partial",
   "theorems": [
    "Kigumi.Props.C66_no_race_partial",
    "Kigumi.Props.C66_race_reachable"
   ],
   "note": "False as stated: the loop condition reads the exception pointer without the lock that its writers hold (C66_race_reachable). Proved for all other shared variables, and fully when no body throws."
  },
  {
   "property": "C67",
   "status": "partial",
   "theorems": [
    "Kigumi.Props.C67_global_no_race",
    "Kigumi.Props.C67_local_race"
   ],
   "note": "False for local classification (C67_local_race); proved for the global pass (C67_global_no_race)."
  },
  {
   "property": "C68",
   "status": "proved",
   "theorems": [
    "Kigumi.Props.C68_determined",
    "Kigumi.Props.C68_consistent"
   ],
   "note": ""
  },
  {
   "property": "C69",
   "status": "proved",
   "theorems": [
    "Kigumi.Props.C69_defects",
    "Kigumi.Props.C69_all_or_nothing"
   ],
   "note": "C69_all_or_nothing allows what a reader prints to the standard output before it refuses a file: the OFF reader does so (off.h:149, 164), unlike the others. The texts of readers are a parameter (complaint)."
  },
  {
   "property": "C70",
   "status": "proved",
   "theorems": [
    "Kigumi.Props.C70_classified",
    "Kigumi.Props.C70_boolean",
    "Kigumi.Props.C70_side",
    "Kigumi.Props.C70_returns",
    "Kigumi.Props.C70_consistent"
   ],
   "note": "Corefined is a hypothesis here; C73 derives it from the corefinement."
  },
  {
   "property": "C71",
   "status": "proved",
   "theorems": [
    "Kigumi.Text.C71_variants",
    "Kigumi.Text.C71_only"
   ],
   "note": ""
  },
  {
   "property": "C72",
   "status": "proved",
   "theorems": [
    "Kigumi.Text.C72_coordinate",
    "Kigumi.Text.C72_obj"
   ],
   "note": ""
  },
  {
   "property": "C73",
   "status": "proved",
   "theorems": [
    "Kigumi.Props.C73_corefined",
    "Kigumi.Props.C73_boolean",
    "Kigumi.Props.C73_side",
    "Kigumi.Props.C73_conforming"
   ],
   "note": "General position is part of the statement; constrained Delaunay triangulations are given by contract, as are exact constructions, boxes and sorting."
  },
  {
   "property": "C74",
   "status": "proved",
   "theorems": [
    "Kigumi.Props.C74_never_throws",
    "Kigumi.Props.C74_collected",
    "Kigumi.Props.C74_triangulations",
    "Kigumi.Props.C74_consistent"
   ],
   "note": "Contracts of CGAL, trees and sorting as hypotheses (Env.Valid, shown satisfiable)."
  },
  {
   "property": "C75",
   "status": "partial",
   "theorems": [
    "Kigumi.Props.C75_throws_iff",
    "Kigumi.Props.C75_visible_partial",
    "Kigumi.Props.C75_convex",
    "Kigumi.Props.C75_full_claim_false"
   ],
   "note": "False as stated (C75_full_claim_false: three disjoint tetrahedral beams and the origin). Proved: whenever some centroid is visible from the point (C75_visible_partial), for all convex regions (C75_convex); exact condition for the exception (C75_throws_iff)."
  },
  {
   "property": "C76",
   "status": "proved",
   "theorems": [
    "Kigumi.Props.C76_never_on_boundary"
   ],
   "note": ""
  },
  {
   "property": "C77",
   "status": "partial",
   "theorems": [
    "Kigumi.Props.C77_fails_only_tied",
    "Kigumi.Props.C77_returns_partial",
    "Kigumi.Props.C77_built_partial",
    "Kigumi.Props.C77_convex",
    "Kigumi.Props.C77_full_claim_false"
   ],
   "note": "False as stated (C77_full_claim_false: three disjoint beams and a small tetrahedron between them, every execution throws). Proved: returns if from every point off a surface some centroid is visible (C77_returns_partial, C77_built_partial), for all convex operands (C77_convex); the only possible reason for a failure (C77_fails_only_tied)."
  },
  {
   "property": "C78",
   "status": "proved",
   "theorems": [
    "Kigumi.Props.C78_triangulation",
    "Kigumi.Props.C78_asked",
    "Kigumi.Props.C78_mixed"
   ],
   "note": ""
  },
  {
   "property": "C79",
   "status": "proved",
   "theorems": [
    "Kigumi.Props.C79_boolean",
    "Kigumi.Props.C79_convex",
    "Kigumi.Props.C79_tetrahedra"
   ],
   "note": ""
  },
  {
   "property": "C80",
   "status": "partial",
   "theorems": [
    "Kigumi.Props.C80_full_claim_false",
    "Kigumi.Props.C80_boolean_partial",
    "Kigumi.Props.C80_silently_wrong"
   ],
   "note": "False in general: C80_full_claim_false is a witness in which every execution loses a tetrahedron (with a warning); C80_silently_wrong is a witness in which every execution returns a wrong symmetric difference without any warning. C80_boolean_partial is the claim for operands that are manifold where faces coincide."
  },
  {
   "property": "C81",
   "status": "proved",
   "theorems": [
    "Kigumi.Props.C81_axes",
    "Kigumi.Props.C81_split",
    "Kigumi.Props.C81_triangulation",
    "Kigumi.Props.C81_mixed",
    "Kigumi.Props.C81_boolean",
    "Kigumi.Props.C81_returns",
    "Kigumi.Props.C81_convex",
    "Kigumi.Props.C81_tetrahedra"
   ],
   "note": ""
  },
  {
   "property": "C82",
   "status": "partial",
   "theorems": [
    "Kigumi.Props.C82_wrong",
    "Kigumi.Props.C82_full_claim_false",
    "Kigumi.Props.C82_boolean_partial"
   ],
   "note": "False as stated (C82_full_claim_false): for two tetrahedra that touch in a square, every execution that returns gives a wrong union or a wrong intersection (C82_wrong), because the square is divided along different diagonals. True, without warnings, if faces that look into opposite directions have no four corners of their common part on a circle (C82_boolean_partial; C81_boolean for other orders). The order by two directions is CGAL's as far as known; its source is not part of the repository."
  },
  {
   "property": "C83",
   "status": "proved",
   "theorems": [
    "Kigumi.Props.C83_query",
    "Kigumi.Props.C83_valid",
    "Kigumi.Props.C83_side",
    "Kigumi.Props.C83_independent",
    "Kigumi.Props.C83_boolean",
    "Kigumi.Props.C83_consistent"
   ],
   "note": ""
  },
  {
   "property": "C84",
   "status": "proved",
   "theorems": [
    "Kigumi.Props.C84_blame",
    "Kigumi.Props.C84_unnoticed",
    "Kigumi.Props.C84_second",
    "Kigumi.Props.C84_first",
    "Kigumi.Props.C84_consistent"
   ],
   "note": ""
  },
  {
   "property": "C85",
   "status": "proved",
   "theorems": [
    "Kigumi.Props.C85_expression",
    "Kigumi.Props.C85_runs",
    "Kigumi.Props.C85_side",
    "Kigumi.Props.C85_convex",
    "Kigumi.Props.C85_exists"
   ],
   "note": ""
  },
  {
   "property": "C86",
   "status": "proved",
   "theorems": [
    "Kigumi.Props.C86_origin",
    "Kigumi.Props.C86_origin_any",
    "Kigumi.Props.C86_preferred",
    "Kigumi.Props.C86_preferred_ties",
    "Kigumi.Props.C86_expression"
   ],
   "note": "Environments as in C73 and C81."
  },
  {
   "property": "C87",
   "status": "proved",
   "theorems": [
    "Kigumi.Props.C87_boolean",
    "Kigumi.Props.C87_step",
    "Kigumi.Props.C87_script",
    "Kigumi.Props.C87_stored",
    "Kigumi.Props.C87_convex",
    "Kigumi.Props.C87_consistent"
   ],
   "note": "C87_boolean: two solids, every output. C87_step, C87_script: results as operands of further runs. C87_stored: what is written can be read. C87_convex: convex solids, status 0. C87_consistent: such an environment exists; Complement.complement: a concrete run."
  },
  {
   "property": "C88",
   "status": "proved",
   "theorems": [
    "Kigumi.Props.C88_read",
    "Kigumi.Props.C88_accepts",
    "Kigumi.Props.C88_refuses"
   ],
   "note": "C88_read: every PLY file (any elements and properties in any order, comments, any white space, signs) is read. C88_accepts: what is accepted has a header with what is needed and as many lines as declared. C88_refuses: files without what is needed are refused. Layout: a concrete file."
  },
  {
   "property": "C89",
   "status": "proved",
   "theorems": [
    "Kigumi.Props.C89_off",
    "Kigumi.Props.C89_off_signature",
    "Kigumi.Props.C89_obj"
   ],
   "note": "C89_off, C89_obj: every file is read. C89_off_signature: nothing without a signature is. Layout: concrete files."
  },
  {
   "property": "C90",
   "status": "partial",
   "theorems": [
    "Kigumi.Props.C90_off_partial",
    "Kigumi.Props.C90_ply_partial",
    "Kigumi.Props.C90_obj_false"
   ],
   "note": "False for OBJ (C90_obj_false: faces lose vertices without a message). C90_off_partial, C90_ply_partial: the claim for OFF and PLY."
  },
  {
   "property": "C91",
   "status": "proved",
   "theorems": [
    "Kigumi.Props.C91_report",
    "Kigumi.Props.C91_returns",
    "Kigumi.Props.C91_environment",
    "Kigumi.Props.C91_command",
    "Kigumi.Props.C91_unique"
   ],
   "note": ""
  },
  {
   "property": "C92",
   "status": "proved",
   "theorems": [
    "Kigumi.Props.C92_conditions",
    "Kigumi.Props.C92_closed",
    "Kigumi.Props.C92_solid",
    "Kigumi.Props.C92_isolated",
    "Kigumi.Props.C92_boolean",
    "Kigumi.Props.C92_not_enough",
    "Kigumi.Props.C92_command"
   ],
   "note": ""
  },
  {
   "property": "C93",
   "status": "partial",
   "theorems": [
    "Kigumi.Props.C93_boolean_partial",
    "Kigumi.Props.C93_side_partial",
    "Kigumi.Props.C93_panels_partial",
    "Kigumi.Props.C93_common_edge_false",
    "Kigumi.Props.C93_full_claim_false"
   ],
   "note": "proved if faces of the two meshes meet outside of the convex set in single points only (C93_boolean_partial, C93_side_partial; C93_panels_partial with existence of executions for any two triangles that cut the set). The statement without this condition is false: C93_common_edge_false, C93_full_claim_false (two triangles with a common edge at the end of the convex set; the union is wrong in every execution, without a warning)."
  },
  {
   "property": "C94",
   "status": "proved",
   "theorems": [
    "Kigumi.Props.C94_off",
    "Kigumi.Props.C94_obj",
    "Kigumi.Props.C94_ply"
   ],
   "note": "The definitions of the formats are those of C88 and C89. Doubles are abstract; Lawful says that what is printed is read back."
  },
  {
   "property": "C95",
   "status": "proved",
   "theorems": [
    "Kigumi.Props.C95_operand",
    "Kigumi.Props.C95_boolean",
    "Kigumi.Props.C95_script",
    "Kigumi.Props.C95_convert",
    "Kigumi.Props.C95_convert_text",
    "Kigumi.Props.C95_consistent"
   ],
   "note": "Relative to Library (C87) and TextLibrary: the environment reads and writes by the models of the readers and writers; NaN, infinities and translation of ends of lines are not considered. Results of Boolean operations under the conditions of C73 and C87."
  },
  {
   "property": "C96",
   "status": "partial",
   "theorems": [
    "Kigumi.Props.C96_off_partial",
    "Kigumi.Props.C96_ply_partial",
    "Kigumi.Props.C96_off_digits",
    "Kigumi.Props.C96_ply_digits",
    "Kigumi.Props.C96_obj_false",
    "Kigumi.Props.C96_full_claim_false",
    "Kigumi.Props.Text95.C96_program_false"
   ],
   "note": "C96_off_partial, C96_ply_partial: refused if the last number is lost completely. C96_off_digits, C96_ply_digits: what is read otherwise (the same mesh if only the end of the line is missing). False in general: C96_full_claim_false, C96_obj_false, Text95.C96_program_false."
  },
  {
   "property": "C97",
   "status": "proved",
   "theorems": [
    "Kigumi.Props.C97_regularizes",
    "Kigumi.Props.C97_boolean",
    "Kigumi.Props.C97_operand",
    "Kigumi.Props.C97_expression",
    "Kigumi.Props.C97_same"
   ],
   "note": ""
  },
  {
   "property": "C98",
   "status": "proved",
   "theorems": [
    "Kigumi.Props.C98_obj",
    "Kigumi.Props.C98_unique",
    "Kigumi.Props.C98_taken",
    "Kigumi.Props.C98_point",
    "Kigumi.Props.C98_zero",
    "Kigumi.Props.C98_files"
   ],
   "note": ""
  },
  {
   "property": "C99",
   "status": "partial",
   "theorems": [
    "Kigumi.Props.C99_right_partial",
    "Kigumi.Props.C99_defined_partial",
    "Kigumi.Props.C99_answers_are_final",
    "Kigumi.Props.C99_full_claim_false",
    "Kigumi.Props.C99_defined_false"
   ],
   "note": "False as stated: faces added after the first finalize are not found, also after another finalize (C99_full_claim_false), and queries may then be undefined behaviour (C99_defined_false). Proved for every program in which no mesh is asked after it was finalised and then changed, finalised again or emptied."
  },
  {
   "property": "C100",
   "status": "proved",
   "theorems": [
    "Kigumi.Props.C100_same_tree",
    "Kigumi.Props.C100_complete",
    "Kigumi.Props.C100_no_race",
    "Kigumi.Props.C100_ends",
    "Kigumi.Props.C100_no_deadlock",
    "Kigumi.Props.C100_throws",
    "Kigumi.Props.C100_side"
   ],
   "note": ""
  },
  {
   "property": "C101",
   "status": "proved",
   "theorems": [
    "Kigumi.Props.C101_taken",
    "Kigumi.Props.C101_off",
    "Kigumi.Props.C101_unique",
    "Kigumi.Props.C101_lines",
    "Kigumi.Props.C101_counts",
    "Kigumi.Props.C101_files",
    "Kigumi.Props.C101_glued"
   ],
   "note": ""
  },
  {
   "property": "C102",
   "status": "proved",
   "theorems": [
    "Kigumi.Props.C102_taken",
    "Kigumi.Props.C102_ply",
    "Kigumi.Props.C102_unique",
    "Kigumi.Props.C102_files",
    "Kigumi.Props.C102_lines",
    "Kigumi.Props.C102_glued"
   ],
   "note": ""
  },
  {
   "property": "C103",
   "status": "proved",
   "theorems": [
    "Kigumi.IO.C103_taken",
    "Kigumi.IO.C103_only",
    "Kigumi.IO.C103_unique",
    "Kigumi.IO.C103_written",
    "Kigumi.IO.C103_face_data",
    "Kigumi.IO.C103_files"
   ],
   "note": ""
  },
  {
   "property": "C104",
   "status": "proved",
   "theorems": [
    "Kigumi.Props.C104_operand",
    "Kigumi.Props.C104_unique",
    "Kigumi.Props.C104_status",
    "Kigumi.Props.C104_refused",
    "Kigumi.Props.C104_consistent"
   ],
   "note": "EndsWithMessage and Dies say what is printed. The texts of readers are a parameter (complaint); two messages of the OFF reader go to the standard output (off.h:149, 164)."
  },
  {
   "property": "C105",
   "status": "proved",
   "theorems": [
    "Kigumi.Props.C105_values",
    "Kigumi.Props.C105_side",
    "Kigumi.Props.C105_moved",
    "Kigumi.Props.C105_consistent",
    "Kigumi.Props.C105_needed"
   ],
   "note": ""
  },
  {
   "property": "C106",
   "status": "proved",
   "theorems": [
    "Kigumi.Props.C106_written",
    "Kigumi.Props.C106_kept",
    "Kigumi.Props.C106_text",
    "Kigumi.Props.C106_finite",
    "Kigumi.Props.C106_output",
    "Kigumi.Props.C106_convert",
    "Kigumi.Props.C106_too_large"
   ],
   "note": ""
  },
  {
   "property": "C107",
   "status": "proved",
   "theorems": [
    "Kigumi.Props.C107_moves",
    "Kigumi.Props.C107_compare",
    "Kigumi.Props.C107_visit",
    "Kigumi.Props.C107_usable",
    "Kigumi.Props.C107_bbox",
    "Kigumi.Props.C107_tight",
    "Kigumi.Props.C107_wrap"
   ],
   "note": ""
  },
  {
   "property": "C108",
   "status": "proved",
   "theorems": [
    "Kigumi.Props.C108_apex",
    "Kigumi.Props.C108_positive",
    "Kigumi.Props.C108_set",
    "Kigumi.Props.C108_denotes",
    "Kigumi.Props.C108_volume",
    "Kigumi.Props.C108_inclusion_exclusion",
    "Kigumi.Props.C108_difference",
    "Kigumi.Props.C108_symmetric",
    "Kigumi.Props.C108_complement",
    "Kigumi.Props.C108_tetrahedra"
   ],
   "note": ""
  },
  {
   "property": "C109",
   "status": "proved",
   "theorems": [
    "Kigumi.Props.C109_linear",
    "Kigumi.Props.C109_expressions",
    "Kigumi.Props.C109_same",
    "Kigumi.Props.C109_three",
    "Kigumi.Props.C109_pieces"
   ],
   "note": ""
  },
  {
   "property": "C110",
   "status": "proved",
   "theorems": [
    "Kigumi.Props.C110_positive",
    "Kigumi.Props.C110_monotone",
    "Kigumi.Props.C110_outside",
    "Kigumi.Props.C110_expressions",
    "Kigumi.Props.C110_result",
    "Kigumi.Props.C110_operations"
   ],
   "note": ""
  },
  {
   "property": "C111",
   "status": "proved",
   "theorems": [
    "Kigumi.Props.C111_messages",
    "Kigumi.Props.C111_one_line",
    "Kigumi.Props.C111_program",
    "Kigumi.Props.C111_consistent"
   ],
   "note": "Spec/Messages lists the messages by format and output. That the message about a line is about the first line to blame is part of C111_messages. Found: two messages of the OFF reader go to the standard output (off.h:149, 164)."
  },
  {
   "property": "C112",
   "status": "proved",
   "theorems": [
    "Kigumi.Props.C112_corefine",
    "Kigumi.Props.C112_extract",
    "Kigumi.Props.C112_trivial",
    "Kigumi.Props.C112_builder",
    "Kigumi.Props.C112_program",
    "Kigumi.Props.C112_consistent",
    "Kigumi.Props.C112_defects",
    "Kigumi.Props.C112_defects_command"
   ],
   "note": "C112_corefine, C112_builder (two boundaries), C112_trivial (an empty or full operand), C112_extract (selection of faces), C112_defects, C112_program (the command; FailsAs says that a failure of the builder is that of one of its parts); C112_consistent: the assumptions can be had."
  },
  {
   "property": "C113",
   "status": "proved",
   "theorems": [
    "Kigumi.Props.C113_triangulation",
    "Kigumi.Props.C113_mixed",
    "Kigumi.Props.C113_mixed_ties",
    "Kigumi.Props.C113_result",
    "Kigumi.Props.C113_result_ties",
    "Kigumi.Props.C113_needed",
    "Kigumi.Props.C113_program"
   ],
   "note": ""
  },
  {
   "property": "C114",
   "status": "proved",
   "theorems": [
    "Kigumi.Props.C114_exchange",
    "Kigumi.Props.C114_preference",
    "Kigumi.Props.C114_exchange_shape",
    "Kigumi.Props.C114_commutes",
    "Kigumi.Props.C114_program"
   ],
   "note": ""
  },
  {
   "property": "C115",
   "status": "proved",
   "theorems": [
    "Kigumi.Props.C115_faces",
    "Kigumi.Props.C115_idempotent",
    "Kigumi.Props.C115_constant"
   ],
   "note": ""
  },
  {
   "property": "C116",
   "status": "proved",
   "theorems": [
    "Kigumi.Props.C116_turned",
    "Kigumi.Props.C116_complements",
    "Kigumi.Props.C116_de_morgan",
    "Kigumi.Props.C116_program"
   ],
   "note": ""
  }
 ]
}
{
 "claims": [
  {
   "property": "C01",
   "status": "proved",
   "theorems": [
    "Ellipy.Config.C01_last_write_wins",
    "Ellipy.Config.C01_set_conf_repo_mgr",
    "Ellipy.Config.C01_setter_effect",
    "Ellipy.Config.C01_after_replacement",
    "Ellipy.Config.C01_no_repository"
   ],
   "note": "Induction over call histories, also after the repository has been replaced."
  },
  {
   "property": "C02",
   "status": "proved",
   "theorems": [
    "Ellipy.Config.C02_snapshot_isolated",
    "Ellipy.Config.C02_writes_elsewhere_invisible",
    "Ellipy.Config.C02_repository_shared"
   ],
   "note": "Heap of dictionary objects; all later call sequences."
  },
  {
   "property": "C03",
   "status": "proved",
   "theorems": [
    "Ellipy.Config.C03_parse_ok",
    "Ellipy.Config.C03_parse_raises",
    "Ellipy.Config.C03_parse_frame"
   ],
   "note": "Both outcomes and the frame."
  },
  {
   "property": "C04",
   "status": "partial",
   "theorems": [
    "Ellipy.Config.C04_violated",
    "Ellipy.Config.C04_parse_all_partial"
   ],
   "note": "The code violates the property: default 'on' fails the bool check. Negation proved for every args without the override; success proved with the override."
  },
  {
   "property": "C05",
   "status": "proved",
   "theorems": [
    "Ellipy.C05_is_member"
   ],
   "note": "All lists over any linear order."
  },
  {
   "property": "C06",
   "status": "proved",
   "theorems": [
    "Ellipy.C06_verdict",
    "Ellipy.C06_abs_diff"
   ],
   "note": "verdict is the entrywise closeness relation; reported difference is the maximum"
  },
  {
   "property": "C07",
   "status": "proved",
   "theorems": [
    "Ellipy.C07_raises_iff",
    "Ellipy.C07_report",
    "Ellipy.C07_refl",
    "Ellipy.C07_symm",
    "Ellipy.C07_mono"
   ],
   "note": ""
  },
  {
   "property": "C08",
   "status": "partial",
   "theorems": [
    "Ellipy.C08_violated",
    "Ellipy.C08_refl_partial",
    "Ellipy.C08_report"
   ],
   "note": "false for boolean leaves (TypeError) and for [] (ValueError); proved for all other well-formed structures"
  },
  {
   "property": "C09",
   "status": "partial",
   "theorems": [
    "Ellipy.C09_violated",
    "Ellipy.C09_sound_partial",
    "Ellipy.C09_complete"
   ],
   "note": "false: list lengths may differ; everything else proved"
  },
  {
   "property": "C10",
   "status": "partial",
   "theorems": [
    "Ellipy.C10_violated",
    "Ellipy.C10_symm_partial"
   ],
   "note": "false for lists of unequal length; proved when lists are aligned"
  },
  {
   "property": "C100",
   "status": "proved",
   "theorems": [
    "Ellipy.Ell.C100_perm",
    "Ellipy.Ell.C100_scale",
    "Ellipy.Ell.C100_assoc",
    "Ellipy.Ell.C100_neg",
    "Ellipy.Ell.C100_proj"
   ],
   "note": ""
  },
  {
   "property": "C101",
   "status": "proved",
   "theorems": [
    "Ellipy.Ell.C101_volume",
    "Ellipy.Ell.C101_eigs",
    "Ellipy.Ell.C101_trace",
    "Ellipy.Ell.C101_rho"
   ],
   "note": ""
  },
  {
   "property": "C102",
   "status": "proved",
   "theorems": [
    "Ellipy.Ell.C102_rho",
    "Ellipy.Ell.C102_inclusion",
    "Ellipy.Ell.C102_volume"
   ],
   "note": "for volumes the polar must not count as flat"
  },
  {
   "property": "C103",
   "status": "partial",
   "theorems": [
    "Ellipy.Ell.C103_violation_ell",
    "Ellipy.Ell.C103_violation_hyp",
    "Ellipy.Ell.C103_neg_partial",
    "Ellipy.Ell.C103_neg_hyp_partial",
    "Ellipy.Ell.C103_violation_neg"
   ],
   "note": "!= and the other operators with stub functions always raise (proved for all operands); unary minus proved for ellipsoids with positive semidefinite shape and for hyperplanes in at least two dimensions, with a witness against dimension one"
  },
  {
   "property": "C104",
   "status": "proved",
   "theorems": [
    "Ellipy.Ell.C104",
    "Ellipy.Ell.C104_three"
   ],
   "note": "the internal approximation of a sum of two ellipses is maximal by inclusion; counterexample for three"
  },
  {
   "property": "C105",
   "status": "proved",
   "theorems": [
    "Ellipy.Ell.C105"
   ],
   "note": ""
  },
  {
   "property": "C106",
   "status": "proved",
   "theorems": [
    "Ellipy.Ell.C106"
   ],
   "note": ""
  },
  {
   "property": "C107",
   "status": "proved",
   "theorems": [
    "Ellipy.Tri.C107",
    "Ellipy.Tri.C107_mesh"
   ],
   "note": "the sizes are plain numbers instead of vectors when there was no pass"
  },
  {
   "property": "C108",
   "status": "proved",
   "theorems": [
    "Ellipy.Ell.C108_plane",
    "Ellipy.Ell.C108_space",
    "Ellipy.Ell.C108_rho",
    "Ellipy.Ell.C108_rhoBoundary",
    "Ellipy.Ell.C108_rhoBoundary_space",
    "Ellipy.Ell.C108_support"
   ],
   "note": "arrays of one ellipsoid in one column (other shapes raise, see C41)"
  },
  {
   "property": "C109",
   "status": "proved",
   "theorems": [
    "Ellipy.Ell.C109_subset",
    "Ellipy.Ell.C109_refl",
    "Ellipy.Ell.C109_trans",
    "Ellipy.Ell.C109_antisymm",
    "Ellipy.Ell.C109_eigs",
    "Ellipy.Ell.C109_volume",
    "Ellipy.Ell.C109_minksum"
   ],
   "note": "positive answers need the condition on the axes of C42 (WellCond)"
  },
  {
   "property": "C11",
   "status": "proved",
   "theorems": [
    "Ellipy.Sym.C11_is_dependent"
   ],
   "note": "regex engine fragment modelled; any class \\w"
  },
  {
   "property": "C110",
   "status": "proved",
   "theorems": [
    "Ellipy.Tri.C110",
    "Ellipy.Tri.C110_surface"
   ],
   "note": "no vertex adjustment; a face matrix with a single row raises (C55) and is excluded by the assumption that a mesh is returned"
  },
  {
   "property": "C111",
   "status": "proved",
   "theorems": [
    "Ellipy.Ell.C111_raises_iff",
    "Ellipy.Ell.C111_compose",
    "Ellipy.Ell.C111_rho",
    "Ellipy.Ell.C111_rho_mat",
    "Ellipy.Ell.C111_scalars"
   ],
   "note": "Bases with exactly orthogonal columns for the composition and the eigenvalues; the directions of rho are those of the basis with unit columns."
  },
  {
   "property": "C112",
   "status": "proved",
   "theorems": [
    "Ellipy.Log.C112_full",
    "Ellipy.Log.C112_default",
    "Ellipy.Log.C112_mode",
    "Ellipy.Log.C112_throw_error",
    "Ellipy.Log.C112_throw_warn",
    "Ellipy.Log.C112_mode_error"
   ],
   "note": "Components of module names contain no dots (they are the parts between dots)."
  },
  {
   "property": "C113",
   "status": "partial",
   "theorems": [
    "Ellipy.Text.C113_ell",
    "Ellipy.Text.C113_ell_layout",
    "Ellipy.Text.C113_raises_iff",
    "Ellipy.Text.C113_hyp_iff",
    "Ellipy.Text.C113_hyp_layout",
    "Ellipy.Text.C113_hyp_partial",
    "Ellipy.Text.C113_hyp_violation"
   ],
   "note": "Hyperplanes through the origin keep the sign of the given normal: x = 0 and -x = 0 are the same set with different texts (C113_hyp_violation)."
  },
  {
   "property": "C114",
   "status": "proved",
   "theorems": [
    "Ellipy.Tri.C114_closed",
    "Ellipy.Tri.C114_surface"
   ],
   "note": "Invariant of the refinement loop: in a pass the uses of a new edge are two or those of an old edge. The statement is about the face-to-edge table; the adjustment must return as many vertices as it is given."
  },
  {
   "property": "C115",
   "status": "partial",
   "theorems": [
    "Ellipy.Tri.C115_partial",
    "Ellipy.Tri.C115_violated",
    "Ellipy.Tri.C115_volume",
    "Ellipy.Tri.C115_sphere",
    "Ellipy.Tri.C115_tube"
   ],
   "note": "tube, sphere and volume proved in full; directions after shrink_face_tri proved when in every pass triangles with a common edge are all split or all left (any adjustment), with a tetrahedron as witness against the general claim"
  },
  {
   "property": "C116",
   "status": "proved",
   "theorems": [
    "Ellipy.Session.C116_ellipsoid",
    "Ellipy.Session.C116_hyperplane",
    "Ellipy.Session.C116_kept",
    "Ellipy.Session.C116_kept_hyperplane",
    "Ellipy.Session.C116_settings_kept",
    "Ellipy.Session.C116_other_keywords"
   ],
   "note": "objects with an infinite tolerance are not modelled (the constructor model answers none)"
  },
  {
   "property": "C117",
   "status": "proved",
   "theorems": [
    "Ellipy.C117_exact",
    "Ellipy.C117_mono",
    "Ellipy.C117_trans",
    "Ellipy.C117_abs_triangle",
    "Ellipy.C117_ellipsoids"
   ],
   "note": "asymmetry of list lengths is part of the exact description (C09, C10 record it as a violation)"
  },
  {
   "property": "C118",
   "status": "partial",
   "theorems": [
    "Ellipy.MV.C118_right",
    "Ellipy.MV.C118_left",
    "Ellipy.MV.C118_matrix",
    "Ellipy.MV.C118_single_partial",
    "Ellipy.MV.C118_raises_iff",
    "Ellipy.MV.C118_flip",
    "Ellipy.MV.C118_compose",
    "Ellipy.MV.C118_vec",
    "Ellipy.MV.C118_vec_raises_iff",
    "Ellipy.MV.C118_preserves",
    "Ellipy.MV.C118_violated_batch",
    "Ellipy.MV.C118_violated_longer"
   ],
   "note": "The code violates the property for one matrix B and a batch A: all matrices of A but the first are ignored (C118_violated_batch); a batch A longer than B is cut silently (C118_violated_longer). Everything else is proved in full."
  },
  {
   "property": "C119",
   "status": "proved",
   "theorems": [
    "Ellipy.Ell.C119_scalars",
    "Ellipy.Ell.C119_bigger",
    "Ellipy.Ell.C119_internal",
    "Ellipy.Ell.C119_rho",
    "Ellipy.Ell.C119_boundary",
    "Ellipy.Ell.C119_boundary_factor",
    "Ellipy.Ell.C119_rho_boundary",
    "Ellipy.Ell.C119_rho_boundary_factor",
    "Ellipy.Ell.C119_minksum_ea",
    "Ellipy.Ell.C119_minksum_ia"
   ],
   "note": "Equalities of results (including exceptions) for moved ellipsoids; no hypotheses on the shape matrices or on the routines of numpy. Exact arithmetic: with floats the sums are rounded."
  },
  {
   "property": "C12",
   "status": "proved",
   "theorems": [
    "Ellipy.Sym.C12_var_replace",
    "Ellipy.Sym.C12_untouched",
    "Ellipy.Sym.C12_words",
    "Ellipy.Sym.C12_disappears",
    "Ellipy.Sym.C12_rename"
   ],
   "note": "names made of word characters, replacement without backslashes"
  },
  {
   "property": "C120",
   "status": "proved",
   "theorems": [
    "Ellipy.Ell.C120_set",
    "Ellipy.Ell.C120_rho",
    "Ellipy.Ell.C120_internal",
    "Ellipy.Ell.C120_minksum_ea",
    "Ellipy.Ell.C120_turn_minksum_ea",
    "Ellipy.Ell.C120_turn_minksum_ia",
    "Ellipy.Ell.C120_turn_sqrtm",
    "Ellipy.Ell.C120_turn_transl",
    "Ellipy.Ell.C120_volume",
    "Ellipy.Ell.C120_turn_scalars",
    "Ellipy.Ell.C120_bigger",
    "Ellipy.Ell.C120_turn_answers",
    "Ellipy.Ell.C120_polar"
   ],
   "note": "Exact equality of the returned values; is_internal for columns of ellipsoids (see C41), is_bigger for well conditioned shapes (see C42), polar with the origin inside (see C46)."
  },
  {
   "property": "C121",
   "status": "proved",
   "theorems": [
    "Ellipy.Ell.C121_scale",
    "Ellipy.Ell.C121_columns",
    "Ellipy.Ell.C121_rho"
   ],
   "note": "Scaling holds for all lists of ellipsoids including the error results; the column part needs at least two ellipsoids (with one, the copies are returned); the part on rho needs a PSD shape."
  },
  {
   "property": "C122",
   "status": "proved",
   "theorems": [
    "Ellipy.Ell.C122_ea",
    "Ellipy.Ell.C122_ia"
   ],
   "note": "Nondegenerate summands, as in C43 and C44; the bounds for minksum_ea on the trace use its closed form, all others only the inclusions."
  },
  {
   "property": "C123",
   "status": "proved",
   "theorems": [
    "Ellipy.MV.C123_assoc",
    "Ellipy.MV.C123_transpose",
    "Ellipy.MV.C123_vec",
    "Ellipy.MV.C123_linear",
    "Ellipy.MV.C123_inv",
    "Ellipy.MV.C123_inv_product",
    "Ellipy.MV.C123_root",
    "Ellipy.MV.C123_divide"
   ],
   "note": "Arrays with three axes and the same number of times; the mixed shapes that break r_multiply are recorded under C16. In C123_inv_product and C123_root the arrays of inv and sqrtm_pos are read as matrices slice by slice."
  },
  {
   "property": "C124",
   "status": "proved",
   "theorems": [
    "Ellipy.SortRows.C124_unique",
    "Ellipy.SortRows.C124_again",
    "Ellipy.SortRows.C124_sorted",
    "Ellipy.SortRows.C124_large_tol",
    "Ellipy.SortRows.C124_shuffle",
    "Ellipy.SortRows.C124_shuffle_entries",
    "Ellipy.SortRows.C124_shuffle_zero",
    "Ellipy.SortRows.C124_units"
   ],
   "note": "Two runs of sort_rows_tol compared, for arbitrary argsort functions meeting the contract; exact arithmetic over any ordered field."
  },
  {
   "property": "C125",
   "status": "proved",
   "theorems": [
    "Ellipy.LA.C125_square",
    "Ellipy.LA.C125_scale",
    "Ellipy.LA.C125_conj",
    "Ellipy.LA.C125_commute",
    "Ellipy.LA.C125_product",
    "Ellipy.LA.C125_inverse",
    "Ellipy.LA.C125_mono",
    "Ellipy.LA.C125_test_scale",
    "Ellipy.LA.C125_test_conj",
    "Ellipy.LA.C125_test_add",
    "Ellipy.LA.C125_reg_again",
    "Ellipy.LA.C125_by_eig_again"
   ],
   "note": "Every call may use its own backend and tolerance; exact arithmetic over the reals. is_mat_pos_def is compared for matrices with at least one row (an empty matrix raises, C20)."
  },
  {
   "property": "C126",
   "status": "proved",
   "theorems": [
    "Ellipy.LA.C126_rest",
    "Ellipy.LA.C126_plane",
    "Ellipy.LA.C126_back",
    "Ellipy.LA.C126_lengths",
    "Ellipy.LA.C126_turn",
    "Ellipy.LA.C126_det",
    "Ellipy.LA.C126_agree",
    "Ellipy.LA.C126_least",
    "Ellipy.LA.C126_haus_least",
    "Ellipy.LA.C126_haus"
   ],
   "note": "Exact arithmetic over the reals. The restriction to equal, opposite or well separated directions is part of the statement; between the thresholds orth_transl is not orthogonal (C24)."
  },
  {
   "property": "C127",
   "status": "proved",
   "theorems": [
    "Ellipy.Hyp.C127_affine",
    "Ellipy.Hyp.C127_scale",
    "Ellipy.Hyp.C127_uminus",
    "Ellipy.Hyp.C127_irrelevant",
    "Ellipy.Hyp.C127_distance",
    "Ellipy.Hyp.C127_segment",
    "Ellipy.Hyp.C127_crossing",
    "Ellipy.Hyp.C127_apart",
    "Ellipy.Hyp.C127_tolerance",
    "Ellipy.Hyp.C127_one_by_one",
    "Ellipy.Hyp.C127_par_symm",
    "Ellipy.Hyp.C127_par_scale",
    "Ellipy.Hyp.C127_par_axes",
    "Ellipy.Hyp.C127_par_tolerance",
    "Ellipy.Hyp.C127_par_arrays"
   ],
   "note": "Exact arithmetic over the reals. Answers are compared with the kind of exception forgotten (toOption)."
  },
  {
   "property": "C128",
   "status": "proved",
   "theorems": [
    "Ellipy.Sym.C128_unique",
    "Ellipy.Sym.C128_value",
    "Ellipy.Sym.C128_rename",
    "Ellipy.Sym.C128_evaluate",
    "Ellipy.Sym.C128_compose",
    "Ellipy.Sym.C128_commute",
    "Ellipy.Sym.C128_again",
    "Ellipy.Sym.C128_conditional"
   ],
   "note": "Grammar in Spec/Formula.lean (numbers without exponents; the replaced name is not the name of a function). C128_conditional shows what happens outside the grammar."
  },
  {
   "property": "C129",
   "status": "proved",
   "theorems": [
    "Ellipy.Ell.C129_join",
    "Ellipy.Ell.C129_same",
    "Ellipy.Ell.C129_modes",
    "Ellipy.Ell.C129_points",
    "Ellipy.Ell.C129_convex",
    "Ellipy.Ell.C129_mirror",
    "Ellipy.Ell.C129_star",
    "Ellipy.Ell.C129_grow",
    "Ellipy.Ell.C129_routines"
   ],
   "note": "Works for every region the eigenvalue routines give to a flat ellipsoid; C129_grow and C129_routines are for non-degenerate ones. Arrays that are not one column raise (C41_violated)."
  },
  {
   "property": "C13",
   "status": "proved",
   "theorems": [
    "Ellipy.SortRows.C13_raises_iff",
    "Ellipy.SortRows.C13_permutation"
   ],
   "note": ""
  },
  {
   "property": "C130",
   "status": "proved",
   "theorems": [
    "Ellipy.Ell.C130_calls",
    "Ellipy.Ell.C130_width",
    "Ellipy.Ell.C130_points",
    "Ellipy.Ell.C130_lipschitz",
    "Ellipy.Ell.C130_determine"
   ],
   "note": "All five for positive semidefinite shapes."
  },
  {
   "property": "C131",
   "status": "proved",
   "theorems": [
    "Ellipy.Tri.C131_kept",
    "Ellipy.Tri.C131_sphere",
    "Ellipy.Tri.C131_parts",
    "Ellipy.Tri.C131_ext",
    "Ellipy.Tri.C131_circle",
    "Ellipy.Ell.C131_boundary",
    "Ellipy.Ell.C131_boundary_plane"
   ],
   "note": "For every argsort routine. The four parts of a triangle are stated with the vertices as points, in any order."
  },
  {
   "property": "C132",
   "status": "proved",
   "theorems": [
    "Ellipy.LA.C132_columns",
    "Ellipy.LA.C132_routines",
    "Ellipy.LA.C132_fixed",
    "Ellipy.LA.C132_twice",
    "Ellipy.LA.C132_turned",
    "Ellipy.LA.C132_steps",
    "Ellipy.LA.C132_signs",
    "Ellipy.LA.C132_first",
    "Ellipy.LA.C132_dependent"
   ],
   "note": "For every pair of QR routines; the last theorem shows that independence is needed."
  },
  {
   "property": "C133",
   "status": "proved",
   "theorems": [
    "Ellipy.Core.C133_monotone",
    "Ellipy.Core.C133_coordinates",
    "Ellipy.Core.C133_ratios",
    "Ellipy.Core.C133_exchange",
    "Ellipy.Core.C133_turns"
   ],
   "note": "C133_coordinates with the identity as change of coordinates is independence of the routines."
  },
  {
   "property": "C134",
   "status": "proved",
   "theorems": [
    "Ellipy.Sup.C134_linear",
    "Ellipy.Sup.C134_affine",
    "Ellipy.Sup.C134_polygon",
    "Ellipy.Sup.C134_circle"
   ],
   "note": "Linear and affine laws, the hull of the corners, and the distance of the polygon from the set."
  },
  {
   "property": "C135",
   "status": "proved",
   "theorems": [
    "Ellipy.Tri.C135_symm",
    "Ellipy.Tri.C135_face_order",
    "Ellipy.Tri.C135_units",
    "Ellipy.Tri.C135_chain",
    "Ellipy.Tri.C135_exact",
    "Ellipy.Tri.C135_trans",
    "Ellipy.Tri.C135_moved",
    "Ellipy.Tri.C135_sphere"
   ],
   "note": "The laws hold for all inputs of the model; the exact characterisation is for surfaces without repeated vertices or faces."
  },
  {
   "property": "C136",
   "status": "proved",
   "theorems": [
    "Ellipy.Sup.C136_linear",
    "Ellipy.Sup.C136_affine",
    "Ellipy.Sup.C136_hull",
    "Ellipy.Sup.C136_sphere",
    "Ellipy.Sup.C136_ellipsoid"
   ],
   "note": "exact arithmetic; numpy.linalg.lstsq by its contract (a least squares solution)"
  },
  {
   "property": "C137",
   "status": "proved",
   "theorems": [
    "Ellipy.Config.C137_split",
    "Ellipy.Config.C137_again",
    "Ellipy.Config.C137_order",
    "Ellipy.Config.C137_others",
    "Ellipy.Config.C137_setting",
    "Ellipy.Config.C137_round",
    "Ellipy.Config.C137_getter"
   ],
   "note": ""
  },
  {
   "property": "C138",
   "status": "proved",
   "theorems": [
    "Ellipy.Core.C138_sign",
    "Ellipy.Core.C138_zero",
    "Ellipy.Core.C138_unique",
    "Ellipy.Core.C138_bracket",
    "Ellipy.Core.C138_swap",
    "Ellipy.Core.C138_move",
    "Ellipy.Core.C138_coordinates"
   ],
   "note": "exact arithmetic; ellipsoids given by the matrices of their inequalities, as the function takes them"
  },
  {
   "property": "C139",
   "status": "proved",
   "theorems": [
    "Ellipy.Ell.C139_near",
    "Ellipy.Ell.C139_same",
    "Ellipy.Ell.C139_close",
    "Ellipy.Ell.C139_looser",
    "Ellipy.Ell.C139_place"
   ],
   "note": "single comparison with ==; exact real arithmetic"
  },
  {
   "property": "C14",
   "status": "proved",
   "theorems": [
    "Ellipy.SortRows.C14_ordered",
    "Ellipy.SortRows.C14_independent",
    "Ellipy.SortRows.C14_zero_tol"
   ],
   "note": ""
  },
  {
   "property": "C140",
   "status": "proved",
   "theorems": [
    "Ellipy.Ell.C140_flat",
    "Ellipy.Ell.C140_member",
    "Ellipy.Ell.C140_width",
    "Ellipy.Ell.C140_least",
    "Ellipy.Ell.C140_scale",
    "Ellipy.Ell.C140_inverse",
    "Ellipy.Ell.C140_coordinates"
   ],
   "note": "exact real arithmetic; least squares by its contract"
  },
  {
   "property": "C141",
   "status": "proved",
   "theorems": [
    "Ellipy.MV.C141_linear",
    "Ellipy.MV.C141_norm",
    "Ellipy.MV.C141_orthogonal",
    "Ellipy.MV.C141_determines"
   ],
   "note": "slices of size 1 and more (empty slices give nan, C74_empty)"
  },
  {
   "property": "C142",
   "status": "proved",
   "theorems": [
    "Ellipy.Ell.C142_sqrtm",
    "Ellipy.Ell.C142_sqrtm_psd",
    "Ellipy.Ell.C142_pos_def",
    "Ellipy.Ell.C142_sem_def",
    "Ellipy.Ell.C142_eigs",
    "Ellipy.Ell.C142_trace",
    "Ellipy.Ell.C142_rho"
   ],
   "note": "formNear_of_entries turns a bound on the entries into a bound on the forms"
  },
  {
   "property": "C143",
   "status": "proved",
   "theorems": [
    "Ellipy.C143_split",
    "Ellipy.C143_more",
    "Ellipy.C143_shuffle",
    "Ellipy.C143_self",
    "Ellipy.C143_back",
    "Ellipy.C143_rename"
   ],
   "note": ""
  },
  {
   "property": "C144",
   "status": "proved",
   "theorems": [
    "Ellipy.C144_zero",
    "Ellipy.C144_rel_zero",
    "Ellipy.C144_two",
    "Ellipy.C144_least",
    "Ellipy.C144_rearrange",
    "Ellipy.C144_pieces",
    "Ellipy.C144_units"
   ],
   "note": ""
  },
  {
   "property": "C145",
   "status": "proved",
   "theorems": [
    "Ellipy.Ell.C145_sqrtm",
    "Ellipy.Ell.C145_inv",
    "Ellipy.Ell.C145_volume",
    "Ellipy.Ell.C145_eigs",
    "Ellipy.Ell.C145_rho",
    "Ellipy.Ell.C145_ea"
   ],
   "note": ""
  },
  {
   "property": "C146",
   "status": "proved",
   "theorems": [
    "Ellipy.Ell.C146_order",
    "Ellipy.Ell.C146_swap",
    "Ellipy.Ell.C146_merge",
    "Ellipy.Ell.C146_merge_first",
    "Ellipy.Ell.C146_merge_ea",
    "Ellipy.Ell.C146_scale"
   ],
   "note": "Exact arithmetic; eigenvalue routines arbitrary within their contract."
  },
  {
   "property": "C147",
   "status": "proved",
   "theorems": [
    "Ellipy.Sup.C147_common",
    "Ellipy.Sup.C147_mono",
    "Ellipy.Sup.C147_upper",
    "Ellipy.Sup.C147_scale",
    "Ellipy.Sup.C147_super",
    "Ellipy.Sup.C147_shift",
    "Ellipy.Sup.C147_again"
   ],
   "note": "Exact arithmetic. The conditions on the rows and on the first direction are those under which C70 holds; without them the function raises (C70_violated_wrap, C70_violated_order)."
  },
  {
   "property": "C148",
   "status": "proved",
   "theorems": [
    "Ellipy.MV.C148_nearest",
    "Ellipy.MV.C148_contracts",
    "Ellipy.MV.C148_split",
    "Ellipy.MV.C148_value",
    "Ellipy.MV.C148_units",
    "Ellipy.MV.C148_root"
   ],
   "note": "Exact arithmetic; np.linalg.eigh arbitrary within its contract."
  },
  {
   "property": "C149",
   "status": "proved",
   "theorems": [
    "Ellipy.Tri.C149_similar",
    "Ellipy.Tri.C149_prefix",
    "Ellipy.Tri.C149_noop",
    "Ellipy.Tri.C149_again"
   ],
   "note": "exact arithmetic; the loop is run with fuel"
  },
  {
   "property": "C15",
   "status": "proved",
   "theorems": [
    "Ellipy.SqrtPos.C15_scalar_raises_iff",
    "Ellipy.SqrtPos.C15_scalar_value",
    "Ellipy.SqrtPos.C15_array_raises_iff",
    "Ellipy.SqrtPos.C15_array_value",
    "Ellipy.SqrtPos.C15_scalar_array"
   ],
   "note": "Scalar and array calls, raise conditions exact."
  },
  {
   "property": "C150",
   "status": "proved",
   "theorems": [
    "Ellipy.Ell.C150_trace",
    "Ellipy.Ell.C150_volume",
    "Ellipy.Ell.C150_polar"
   ],
   "note": "exact arithmetic"
  },
  {
   "property": "C151",
   "status": "proved",
   "theorems": [
    "Ellipy.Tri.C151_same_sides",
    "Ellipy.Tri.C151_sort",
    "Ellipy.Tri.C151_renumber",
    "Ellipy.Tri.C151_part",
    "Ellipy.Tri.C151_is_face"
   ],
   "note": ""
  },
  {
   "property": "C152",
   "status": "proved",
   "theorems": [
    "Ellipy.Geom.C152_circle",
    "Ellipy.Geom.C152_split",
    "Ellipy.Geom.C152_turn",
    "Ellipy.Ell.C152_plane",
    "Ellipy.Ell.C152_space"
   ],
   "note": "Balance, halves and turns of circle_part; mean and second moments of the boundary points, with the bound in terms of machine epsilon that the code's replacement of zeros requires."
  },
  {
   "property": "C153",
   "status": "proved",
   "theorems": [
    "Ellipy.Tri.C153_glue",
    "Ellipy.Tri.C153_turn",
    "Ellipy.Tri.C153_corners",
    "Ellipy.Tri.C153_rings",
    "Ellipy.Tri.C153_lines"
   ],
   "note": "Gluing, turning, numbers of triangles at the vertices, rings, and the lines as edges of the triangles."
  },
  {
   "property": "C154",
   "status": "proved",
   "theorems": [
    "Ellipy.MV.C154_units",
    "Ellipy.MV.C154_coordinates",
    "Ellipy.MV.C154_extremal",
    "Ellipy.MV.C154_ellipsoid",
    "Ellipy.MV.C154_order",
    "Ellipy.MV.C154_parallelogram",
    "Ellipy.MV.C154_quad_mat"
   ],
   "note": "Stated for arrays with as many vectors as slices; singular slices and the other shapes are the subject of C79."
  },
  {
   "property": "C155",
   "status": "proved",
   "theorems": [
    "Ellipy.Ell.C155_value",
    "Ellipy.Ell.C155_move",
    "Ellipy.Ell.C155_lengths",
    "Ellipy.Ell.C155_opposite",
    "Ellipy.Ell.C155_exchange",
    "Ellipy.Ell.C155_select",
    "Ellipy.Ell.C155_same_shape"
   ],
   "note": "closed form of the points and relations between calls, exact arithmetic"
  },
  {
   "property": "C156",
   "status": "proved",
   "theorems": [
    "Ellipy.MV.C156_times",
    "Ellipy.MV.C156_append",
    "Ellipy.MV.C156_prefix",
    "Ellipy.MV.C156_eval_from",
    "Ellipy.MV.C156_eval_id",
    "Ellipy.MV.C156_eval_eval",
    "Ellipy.MV.C156_numbers_values"
   ],
   "note": "relations between calls"
  },
  {
   "property": "C157",
   "status": "proved",
   "theorems": [
    "Ellipy.Ell.C157_polar",
    "Ellipy.Ell.C157_internal",
    "Ellipy.Ell.C157_internal_lift",
    "Ellipy.Ell.C157_bigger",
    "Ellipy.Ell.C157_minksum_ia"
   ],
   "note": "relations between calls, exact arithmetic"
  },
  {
   "property": "C158",
   "status": "proved",
   "theorems": [
    "Ellipy.Hyp.C158_touch",
    "Ellipy.Hyp.C158_opposite",
    "Ellipy.Hyp.C158_meet",
    "Ellipy.Hyp.C158_separate",
    "Ellipy.Hyp.C158_between"
   ],
   "note": "Exact real arithmetic. Hyperplanes are built with the values of rho as shifts, normals unchanged."
  },
  {
   "property": "C159",
   "status": "proved",
   "theorems": [
    "Ellipy.Geom.C159_prefix",
    "Ellipy.Geom.C159_pole",
    "Ellipy.Geom.C159_repeats"
   ],
   "note": "Exact logarithms, arc cosines and square roots; numpy's argsort is a parameter with its contract."
  },
  {
   "property": "C16",
   "status": "partial",
   "theorems": [
    "Ellipy.MV.C16_two_partial",
    "Ellipy.MV.C16_three_partial",
    "Ellipy.MV.C16_sparse_raises_iff",
    "Ellipy.MV.C16_sparse3_raises_iff",
    "Ellipy.MV.C16_dense_raises_partial",
    "Ellipy.MV.C16_switch",
    "Ellipy.MV.C16_switch3",
    "Ellipy.MV.C16_violated_one_slice",
    "Ellipy.MV.C16_violated_shape",
    "Ellipy.MV.C16_violated_three"
   ],
   "note": "Two- and three-factor products equal the slice-wise matrix products in both code paths; single-slice and (1,k,1)-shaped second factors and 2-D third factors violate the claim, with witnesses."
  },
  {
   "property": "C160",
   "status": "proved",
   "theorems": [
    "Ellipy.Ell.C160_ellipse",
    "Ellipy.Ell.C160_sum",
    "Ellipy.Ell.C160_space"
   ],
   "note": "Composition of calls in exact real arithmetic; the bounds need not be sharp."
  },
  {
   "property": "C161",
   "status": "proved",
   "theorems": [
    "Ellipy.Ell.C161_object",
    "Ellipy.Ell.C161_rho",
    "Ellipy.Ell.C161_numbers",
    "Ellipy.Ell.C161_polar",
    "Ellipy.Ell.C161_minksum",
    "Ellipy.Ell.C161_internal"
   ],
   "note": "roundN n r is the object with centre zero and matrix r^2 times the identity; the first theorem says that ell_unitball returns it for r = 1 and which points it has. rho takes the object as an array of shape (), is_internal as a column (see C41), polar as an array with one element (see C46). Exact arithmetic."
  },
  {
   "property": "C162",
   "status": "proved",
   "theorems": [
    "Ellipy.Ell.C162_plane",
    "Ellipy.Ell.C162_space"
   ],
   "note": "eps is the machine epsilon, by which get_boundary replaces zeros (see C47). lineArea and surfVolume are the usual sums over segments and triangles; they are not compared with the Lebesgue measure of the polygon. Exact arithmetic."
  },
  {
   "property": "C163",
   "status": "proved",
   "theorems": [
    "Ellipy.Ell.C163"
   ],
   "note": "The tolerance condition keeps the external approximations above the tolerance below which volume reports 0."
  },
  {
   "property": "C164",
   "status": "proved",
   "theorems": [
    "Ellipy.Ell.C164_ea",
    "Ellipy.Ell.C164_all",
    "Ellipy.Ell.C164_ia"
   ],
   "note": "polar takes an array with one element (see C46). Exact arithmetic."
  },
  {
   "property": "C17",
   "status": "proved",
   "theorems": [
    "Ellipy.MV.C17_value",
    "Ellipy.MV.C17_raises_iff",
    "Ellipy.MV.C17_shape_violated"
   ],
   "note": "Both code paths give the slice-wise matrix-vector products; the exact set of rejected shapes is stated."
  },
  {
   "property": "C18",
   "status": "partial",
   "theorems": [
    "Ellipy.MV.C18_partial",
    "Ellipy.MV.C18_diagonal",
    "Ellipy.MV.C18_lr_actual",
    "Ellipy.MV.C18_lr_vec_actual",
    "Ellipy.MV.C18_r_vec_actual",
    "Ellipy.MV.C18_divide_actual",
    "Ellipy.MV.C18_violated",
    "Ellipy.MV.C18_left_actual",
    "Ellipy.MV.C18_left_violated",
    "Ellipy.MV.C18_raises",
    "Ellipy.MV.C18_flag"
   ],
   "note": "The code multiplies by V where the transpose is needed: the actual results are proved for all inputs, they equal the direct products when V is symmetric, and diag(2,3,1) refutes the claim for every valid eigendecomposition. With the flag 'L' matrices A that are not square always raise and square ones give V A^T D A V^T."
  },
  {
   "property": "C19",
   "status": "proved",
   "theorems": [
    "Ellipy.MV.C19_raises_iff",
    "Ellipy.MV.C19_eigenpairs",
    "Ellipy.MV.C19_psd",
    "Ellipy.MV.C19_fixed"
   ],
   "note": "Exact arithmetic; eigh as a contract."
  },
  {
   "property": "C20",
   "status": "proved",
   "theorems": [
    "Ellipy.LA.C20_symm",
    "Ellipy.LA.C20_raises_iff",
    "Ellipy.LA.C20_nearly",
    "Ellipy.LA.C20_pos_def",
    "Ellipy.LA.C20_sem_def"
   ],
   "note": "For every eigh satisfying its contract."
  },
  {
   "property": "C21",
   "status": "proved",
   "theorems": [
    "Ellipy.LA.C21_raises_iff",
    "Ellipy.LA.C21_tol",
    "Ellipy.LA.C21_root"
   ],
   "note": "For every eigh satisfying its contract; uniqueness of the PSD root proved."
  },
  {
   "property": "C22",
   "status": "proved",
   "theorems": [
    "Ellipy.LA.C22_raises_iff",
    "Ellipy.LA.C22_above",
    "Ellipy.LA.C22_fixed",
    "Ellipy.LA.C22_lift",
    "Ellipy.LA.C22_idempotent",
    "Ellipy.LA.C22_distinct",
    "Ellipy.LA.C22_eig_violated"
   ],
   "note": "Eigenvector basis returned by np.linalg.eig assumed orthonormal where it is not automatic (C22_distinct: automatic for distinct eigenvalues; C22_eig_violated: needed in general)."
  },
  {
   "property": "C23",
   "status": "proved",
   "theorems": [
    "Ellipy.LA.C23_raises_iff",
    "Ellipy.LA.C23_bound",
    "Ellipy.LA.C23_fixed"
   ],
   "note": "For every svd satisfying its contract."
  },
  {
   "property": "C24",
   "status": "partial",
   "theorems": [
    "Ellipy.LA.C24_raises_iff",
    "Ellipy.LA.C24_partial",
    "Ellipy.LA.C24_feasible_iff",
    "Ellipy.LA.C24_violated",
    "Ellipy.LA.C24_close",
    "Ellipy.LA.C24_ml"
   ],
   "note": "Holds exactly for directions that are equal, opposite or more than 1e-7 apart (C24_feasible_iff); fails otherwise (C24_violated, error bounded by C24_close)."
  },
  {
   "property": "C25",
   "status": "partial",
   "theorems": [
    "Ellipy.LA.C25_haus_nan_iff",
    "Ellipy.LA.C25_haus_orth",
    "Ellipy.LA.C25_haus_partial",
    "Ellipy.LA.C25_haus_carries_iff",
    "Ellipy.LA.C25_haus_violated",
    "Ellipy.LA.C25_qr",
    "Ellipy.LA.C25_qr_raises_iff"
   ],
   "note": "QR variant full; the Householder variant gives NaNs for a zero vector and carries the direction exactly when the directions are equal or at squared distance at least 1e-14 (C25_haus_carries_iff)."
  },
  {
   "property": "C26",
   "status": "partial",
   "theorems": [
    "Ellipy.LA.C26_raises_iff",
    "Ellipy.LA.C26_partial",
    "Ellipy.LA.C26_feasible_iff",
    "Ellipy.LA.C26_dim_one",
    "Ellipy.LA.C26_violated",
    "Ellipy.LA.C26_violated_near"
   ],
   "note": "Holds exactly for directions that are on the first axis or more than 1e-7 away from it; otherwise the result is not orthogonal (C26_feasible_iff, C26_violated_near). In dimension one exactly for equal signs (C26_dim_one, C26_violated)."
  },
  {
   "property": "C27",
   "status": "partial",
   "theorems": [
    "Ellipy.LA.C27_raises_iff",
    "Ellipy.LA.C27_partial",
    "Ellipy.LA.C27_feasible_iff",
    "Ellipy.LA.C27_violated",
    "Ellipy.LA.C27_dim_one"
   ],
   "note": "Holds in dimension one, and otherwise exactly for directions that are on the first axis or more than 1e-7 away from it; the result is not orthogonal in the other cases (C27_feasible_iff, C27_violated)."
  },
  {
   "property": "C28",
   "status": "proved",
   "theorems": [
    "Ellipy.LA.C28_orth",
    "Ellipy.LA.C28_triangular",
    "Ellipy.LA.C28_col"
   ],
   "note": "For every complete QR factorisation."
  },
  {
   "property": "C29",
   "status": "proved",
   "theorems": [
    "Ellipy.Core.C29",
    "Ellipy.Core.C29_raises_iff",
    "Ellipy.Core.C29_indefinite"
   ],
   "note": "Positive semidefinite second argument as in the statement; for indefinite ones (accepted by the code) a valid SVD gives a non-diagonal result."
  },
  {
   "property": "C30",
   "status": "proved",
   "theorems": [
    "Ellipy.Core.C30",
    "Ellipy.Core.C30_raises_iff"
   ],
   "note": "Arrays of one element are rejected (squeeze removes the axis)."
  },
  {
   "property": "C31",
   "status": "proved",
   "theorems": [
    "Ellipy.Ell.C31",
    "Ellipy.Ell.C31_raises_iff",
    "Ellipy.Ell.C31_single_no_tol"
   ],
   "note": "rho_mat: support function and support point for every PSD shape (degenerate included), exact rejection set, and the missing tolerance on the single-direction path"
  },
  {
   "property": "C32",
   "status": "proved",
   "theorems": [
    "Ellipy.Ell.C32",
    "Ellipy.Ell.C32_raises_iff",
    "Ellipy.Ell.C32_ell_volume",
    "Ellipy.Ell.C32_degenerate"
   ],
   "note": "volume and ell_volume against Mathlib's Lebesgue measure on Fin n -> R, in every dimension; shape matrices exactly symmetric. The shape of the returned numpy array for a mix of flat and solid ellipsoids is not modelled."
  },
  {
   "property": "C33",
   "status": "proved",
   "theorems": [
    "Ellipy.Ell.C33",
    "Ellipy.Ell.C33_shape",
    "Ellipy.Ell.C33_center",
    "Ellipy.Ell.C33_shape_raises",
    "Ellipy.Ell.C33_invariant"
   ],
   "note": "All argument lists of numeric arrays (complex entries, NaN/inf, any shapes) or non-arrays; arrays of strings/objects not modelled. Arguments after the second are ignored by the code, as the theorem says."
  },
  {
   "property": "C34",
   "status": "proved",
   "theorems": [
    "Ellipy.Ell.C34",
    "Ellipy.Ell.C34_valid",
    "Ellipy.Ell.C34_fresh"
   ],
   "note": "for every sequence of calls; the objects, arrays and references are modelled by a heap"
  },
  {
   "property": "C35",
   "status": "partial",
   "theorems": [
    "Ellipy.Ell.C35_get_projection",
    "Ellipy.Ell.C35_projection_partial",
    "Ellipy.Ell.C35_raises_partial",
    "Ellipy.Ell.C35_violation",
    "Ellipy.Ell.C35_violation_twice",
    "Ellipy.Ell.C35_violation_distinct"
   ],
   "note": "get_projection: full; projection: for arrays of different objects, and no change on an exception for exactly symmetric shape matrices; the code violates the rest (witnesses)"
  },
  {
   "property": "C36",
   "status": "partial",
   "theorems": [
    "Ellipy.Ell.C36_partial",
    "Ellipy.Ell.C36_violation",
    "Ellipy.Ell.C35_raises_partial"
   ],
   "note": "shadow proved for positive semidefinite shape matrices; the check of orthogonality has no absolute value, so the raising clause is violated (witness)"
  },
  {
   "property": "C37",
   "status": "partial",
   "theorems": [
    "Ellipy.Ell.C37_get_copy",
    "Ellipy.Ell.C37_rep_mat",
    "Ellipy.Ell.C37_from_rep_mat",
    "Ellipy.Ell.C37_independent",
    "Ellipy.Hyp.C37_hyp_get_copy_partial",
    "Ellipy.Hyp.C37_hyp_rep_mat_partial",
    "Ellipy.Hyp.C37_hyp_violation"
   ],
   "note": "ellipsoids: full; hyperplanes: normal, shift and absolute tolerance kept, relative tolerance lost (witness)"
  },
  {
   "property": "C38",
   "status": "proved",
   "theorems": [
    "Ellipy.Ell.C38"
   ],
   "note": "data and properties identical; n_plot values become floats of the same value"
  },
  {
   "property": "C39",
   "status": "partial",
   "theorems": [
    "Ellipy.Ell.C39_partial",
    "Ellipy.Ell.C39_raises_iff",
    "Ellipy.Ell.C39_involution",
    "Ellipy.Ell.C39_violation",
    "Ellipy.Hyp.C39_hyp_partial",
    "Ellipy.Hyp.C39_hyp_involution",
    "Ellipy.Hyp.C39_hyp_only",
    "Ellipy.Hyp.C39_hyp_violation"
   ],
   "note": "ellipsoids: reflection and involution proved, tolerances not kept (witness); hyperplanes: the set stays the same, so it is the reflection only for shift zero (witness)"
  },
  {
   "property": "C40",
   "status": "partial",
   "theorems": [
    "Ellipy.Ell.C40_one_ell",
    "Ellipy.Ell.C40_one_dir",
    "Ellipy.Ell.C40_pairs_partial",
    "Ellipy.Ell.C40_raises",
    "Ellipy.Ell.C40_violated"
   ],
   "note": "One ellipsoid or one direction: fully. Equal numbers: for rows, columns and equal multi-dimensional shapes; a plain list of two or more ellipsoids with as many directions always raises (ell_size_vec[1])."
  },
  {
   "property": "C41",
   "status": "partial",
   "theorems": [
    "Ellipy.Ell.C41_partial",
    "Ellipy.Ell.C41_flat",
    "Ellipy.Ell.C41_violated",
    "Ellipy.Ell.C41_raises"
   ],
   "note": "Exact for arrays that are one column; every other shape, a plain list included, raises. Flat ellipsoids are regularised and no point is missed."
  },
  {
   "property": "C42",
   "status": "partial",
   "theorems": [
    "Ellipy.Ell.C42_partial",
    "Ellipy.Ell.C42_iff",
    "Ellipy.Ell.C42_sound",
    "Ellipy.Ell.C42_raises",
    "Ellipy.Ell.C42_violated",
    "Ellipy.Ell.C42_degenerate"
   ],
   "note": "For a non-degenerate first ellipsoid the verdict is proved in all cases (C42_iff): the second one is inside and has not more eigenvalues above the rank threshold. So True is always right; False is right unless the ratio of the squared axes of the first ellipsoid exceeds 1/(n eps), where the rank comparison can be wrong. The regularisation of a degenerate first ellipsoid leads to an error."
  },
  {
   "property": "C43",
   "status": "proved",
   "theorems": [
    "Ellipy.Ell.C43",
    "Ellipy.Ell.C43_flat",
    "Ellipy.Ell.C43_one",
    "Ellipy.Ell.C43_raises_iff"
   ],
   "note": "containment also for degenerate (regularised) ellipsoids whenever a value is returned"
  },
  {
   "property": "C44",
   "status": "partial",
   "theorems": [
    "Ellipy.Ell.C44",
    "Ellipy.Ell.C44_touch_partial",
    "Ellipy.Ell.C44_touch_violated",
    "Ellipy.Ell.C44_raises_iff"
   ],
   "note": "containment and relative error 1e-14 in the direction always; exact touching unless two images of the direction are nearly parallel (0 < sin <= 1e-7), where it fails (witness)"
  },
  {
   "property": "C45",
   "status": "proved",
   "theorems": [
    "Ellipy.Ell.C45"
   ],
   "note": "any two lists of directions"
  },
  {
   "property": "C46",
   "status": "partial",
   "theorems": [
    "Ellipy.Ell.C46_partial",
    "Ellipy.Ell.C46_outside_partial",
    "Ellipy.Ell.C46_iff",
    "Ellipy.Ell.C46_raises_iff",
    "Ellipy.Ell.C46_array_violated",
    "Ellipy.Ell.C46_degenerate",
    "Ellipy.Ell.C46_outside_violated",
    "Ellipy.Ell.C46_line_violated",
    "Ellipy.Ell.C46_plain_partial",
    "Ellipy.Ell.C46_plain_violated"
   ],
   "note": "One non-degenerate ellipsoid: the result is the polar set exactly if the origin is inside (C46_iff), and C46_raises_iff says exactly when the call raises. Arrays of two or more always raise; every interval without the origin is accepted and gives the interval of the reciprocals (C46_line_violated); the unused second method is wrong unless the centre is the origin."
  },
  {
   "property": "C47",
   "status": "partial",
   "theorems": [
    "Ellipy.Ell.C47",
    "Ellipy.Ell.C47_space",
    "Ellipy.Ell.C47_violated",
    "Ellipy.Ell.C47_raises",
    "Ellipy.Ell.C47_raises_num",
    "Ellipy.Ell.C47_factor",
    "Ellipy.Ell.C47_factor_float"
   ],
   "note": "Holds in the plane and, with the faces, in space; without the faces the call always raises in space (C47_violated); a float factor always raises (C47_factor_float)"
  },
  {
   "property": "C48",
   "status": "partial",
   "theorems": [
    "Ellipy.Ell.C48_refl",
    "Ellipy.Ell.C48_symm_partial",
    "Ellipy.Ell.C48_symm",
    "Ellipy.Ell.C48_elementwise_partial",
    "Ellipy.Ell.C48_eq_partial",
    "Ellipy.Ell.C48_raises_iff",
    "Ellipy.Ell.C48_scalar",
    "Ellipy.Ell.C48_violation_symm",
    "Ellipy.Ell.C48_violation_tol"
   ],
   "note": "reflexive, symmetric and elementwise for PSD shapes; symmetry fails for size-1 arrays of different dimension numbers and the tolerance is shared by the whole array (witnesses)"
  },
  {
   "property": "C49",
   "status": "partial",
   "theorems": [
    "Ellipy.Ell.C49_violation",
    "Ellipy.Ell.C49_partial"
   ],
   "note": "violated: comparison with properties included always raises for non-empty arrays"
  },
  {
   "property": "C50",
   "status": "partial",
   "theorems": [
    "Ellipy.Hyp.C50_verdict",
    "Ellipy.Hyp.C50_elementwise",
    "Ellipy.Hyp.C50_symm",
    "Ellipy.Hyp.C50_refl",
    "Ellipy.Hyp.C50_partial",
    "Ellipy.Hyp.C50_neg_iff",
    "Ellipy.Hyp.C50_violation",
    "Ellipy.Hyp.C50_violation_scale"
   ],
   "note": "exact verdict proved; the claim fails for shift zero with a negative factor and for one-dimensional hyperplanes scaled below the tolerance (witnesses)"
  },
  {
   "property": "C51",
   "status": "proved",
   "theorems": [
    "Ellipy.Hyp.C51_one_point",
    "Ellipy.Hyp.C51_one_hyp",
    "Ellipy.Hyp.C51_pairs",
    "Ellipy.Hyp.C51_raises_iff",
    "Ellipy.Hyp.onPlane_fin"
   ],
   "note": "all size combinations, infinite coordinates and the exact set of rejected inputs"
  },
  {
   "property": "C52",
   "status": "partial",
   "theorems": [
    "Ellipy.Hyp.C52_verdict",
    "Ellipy.Hyp.C52_partial",
    "Ellipy.Hyp.C52_one_dim",
    "Ellipy.Hyp.C52_dims",
    "Ellipy.Hyp.C52_arrays",
    "Ellipy.Hyp.C52_violation",
    "Ellipy.Hyp.C52_violation_plane",
    "Ellipy.Hyp.C52_violation_many",
    "Ellipy.Hyp.C52_violation_one"
   ],
   "note": "parallel implies true; the converse is violated: agreement in one coordinate is enough (witnesses)"
  },
  {
   "property": "C53",
   "status": "proved",
   "theorems": [
    "Ellipy.Tri.C53",
    "Ellipy.Tri.C53_raises"
   ],
   "note": "For every argsort that sorts, in particular any order of ties."
  },
  {
   "property": "C54",
   "status": "partial",
   "theorems": [
    "Ellipy.Tri.C54_partial",
    "Ellipy.Tri.C54_range_partial",
    "Ellipy.Tri.C54_uniform_partial",
    "Ellipy.Tri.C54_violated"
   ],
   "note": "Index ranges, edge incidence for every adjustment; without adjustment every row is consistent up to an exchange of the first two vertices of flat faces; full consistency when no split edge touches a kept face. The full claim is false: flat faces have the wrong vertex order (C54_violated)."
  },
  {
   "property": "C55",
   "status": "partial",
   "theorems": [
    "Ellipy.Tri.C55_partial",
    "Ellipy.Tri.C55_violated",
    "Ellipy.Tri.C55_one_row"
   ],
   "note": "Termination and short edges for all meshes except one-row matrices, for which the call raises IndexError exactly when a side is too long (C55_violated, C55_one_row)."
  },
  {
   "property": "C56",
   "status": "proved",
   "theorems": [
    "Ellipy.Tri.C56",
    "Ellipy.Tri.C56_fan",
    "Ellipy.Tri.C56_apart",
    "Ellipy.Tri.C56_dense",
    "Ellipy.Tri.C56_raises"
   ],
   "note": "All depths; numpy's argsort is a parameter with its contract; the loop's fuel is arbitrary above the depth. C56_fan: covering, no overlaps, different vertices, central symmetry. C56_apart: distances between vertices. C56_dense: size of the triangles."
  },
  {
   "property": "C57",
   "status": "proved",
   "theorems": [
    "Ellipy.Tri.C57",
    "Ellipy.Tri.C57_plane",
    "Ellipy.Tri.C57_raises_iff",
    "Ellipy.Tri.C57_inf"
   ],
   "note": "An infinite number of points passes the check and the search does not end in space (C57_inf)"
  },
  {
   "property": "C58",
   "status": "proved",
   "theorems": [
    "Ellipy.Tri.C58",
    "Ellipy.Tri.C58_raises"
   ],
   "note": "The list is a permutation of the triangles of all quads."
  },
  {
   "property": "C59",
   "status": "proved",
   "theorems": [
    "Ellipy.Geom.C59",
    "Ellipy.Geom.C59_raises_iff",
    "Ellipy.Geom.C59_range"
   ],
   "note": "Exact cosines and sines."
  },
  {
   "property": "C60",
   "status": "partial",
   "theorems": [
    "Ellipy.Log.C60_partial",
    "Ellipy.Log.C60_once",
    "Ellipy.Log.C60_violated"
   ],
   "note": "Every call adds one more handler: after k earlier calls from the same function a record is emitted k+1 times."
  },
  {
   "property": "C61",
   "status": "partial",
   "theorems": [
    "Ellipy.Hyp.C61_partial",
    "Ellipy.Hyp.C61_raises_iff",
    "Ellipy.Hyp.C61_violation"
   ],
   "note": "proved unless the hyperplane is negligible; then from_dict raises (witness)"
  },
  {
   "property": "C62",
   "status": "proved",
   "theorems": [
    "Ellipy.Ell.C62_plain",
    "Ellipy.Ell.C62_inv",
    "Ellipy.Ell.C62_inv_singular",
    "Ellipy.Ell.C62_raises_iff",
    "Ellipy.Ell.C62_inv_mat",
    "Ellipy.Ell.C62_inv_mat_raises_iff"
   ],
   "note": "for every least squares routine satisfying its contract; singular matrices in mode inv give the minimum norm solution"
  },
  {
   "property": "C63",
   "status": "proved",
   "theorems": [
    "Ellipy.Log.C63"
   ],
   "note": "Names as lists of components."
  },
  {
   "property": "C64",
   "status": "proved",
   "theorems": [
    "Ellipy.Tri.C64"
   ],
   "note": "Exact."
  },
  {
   "property": "C65",
   "status": "proved",
   "theorems": [
    "Ellipy.Ell.C65",
    "Ellipy.Ell.C65_space",
    "Ellipy.Ell.C65_raises",
    "Ellipy.Ell.C65_factor"
   ],
   "note": "Flat ellipsoids included; exact arithmetic"
  },
  {
   "property": "C66",
   "status": "partial",
   "theorems": [
    "Ellipy.Ell.C66_partial",
    "Ellipy.Ell.C66_violated"
   ],
   "note": "Holds in space; in the plane every call raises except for two points, where the result is wrong (C66_violated)"
  },
  {
   "property": "C67",
   "status": "proved",
   "theorems": [
    "Ellipy.Core.C67",
    "Ellipy.Core.C67_min",
    "Ellipy.Core.C67_encloses",
    "Ellipy.Core.C67_raises_iff"
   ],
   "note": "Sign of the value against the derivative of Lebesgue measure; volume minimiser is a zero; the fused set contains the intersection; exact error condition."
  },
  {
   "property": "C68",
   "status": "proved",
   "theorems": [
    "Ellipy.Sup.C68",
    "Ellipy.Sup.C68_polygon",
    "Ellipy.Sup.C68_raises_iff"
   ],
   "note": "Every least squares solver; corners of the circumscribed polygon; exact error condition."
  },
  {
   "property": "C69",
   "status": "proved",
   "theorems": [
    "Ellipy.Sup.C69",
    "Ellipy.Sup.C69_raises_iff"
   ],
   "note": "Every least squares solver; uniqueness when the directions span; exact error condition."
  },
  {
   "property": "C70",
   "status": "partial",
   "theorems": [
    "Ellipy.Sup.C70_partial",
    "Ellipy.Sup.C70_ccw_partial",
    "Ellipy.Sup.C70_violated_wrap",
    "Ellipy.Sup.C70_violated_order",
    "Ellipy.Sup.C70_rejects",
    "Ellipy.Sup.C70_flat"
   ],
   "note": "Violated: raises when an edge of the polar polygon passes over the first direction (IndexError), and when the hull rows are not counterclockwise. Proved when the first direction is not redundant and the rows are counterclockwise."
  },
  {
   "property": "C71",
   "status": "partial",
   "theorems": [
    "Ellipy.Sup.C71_partial",
    "Ellipy.Sup.C71_thick_partial",
    "Ellipy.Sup.C71_violated_scale",
    "Ellipy.Sup.C71_rejects"
   ],
   "note": "Violated: for large sets all entries are inf because of the absolute tolerance on a determinant. Proved: every finite entry is within the stated factor of the support value, and it is finite when the triangles are thick enough."
  },
  {
   "property": "C72",
   "status": "partial",
   "theorems": [
    "Ellipy.Tri.C72_sound",
    "Ellipy.Tri.C72_partial",
    "Ellipy.Tri.C72_missed",
    "Ellipy.Tri.C72_violated",
    "Ellipy.Tri.C72_raises_iff"
   ],
   "note": "Rows reported as faces are faces; the converse holds exactly for rows none of whose edges belongs to more than two faces; fan of three triangles is a counterexample to the full claim."
  },
  {
   "property": "C73",
   "status": "partial",
   "theorems": [
    "Ellipy.Tri.C73_sound",
    "Ellipy.Tri.C73_self_partial",
    "Ellipy.Tri.C73_complete_partial",
    "Ellipy.Tri.C73_counts",
    "Ellipy.Tri.C73_raises_iff",
    "Ellipy.Tri.C73_violated",
    "Ellipy.Tri.C73_violated_tol"
   ],
   "note": "Equality reported implies agreement up to renumbering and tolerance; the converse is proved for vertices that agree up to an error, are separated, and have no coordinate differences close to the tolerance, and for edges with at most two faces; it is refuted without these conditions."
  },
  {
   "property": "C74",
   "status": "proved",
   "theorems": [
    "Ellipy.MV.C74_value",
    "Ellipy.MV.C74_inner",
    "Ellipy.MV.C74_raises_iff",
    "Ellipy.MV.C74_empty"
   ],
   "note": "Any number of axes; empty matrices give nan."
  },
  {
   "property": "C75",
   "status": "partial",
   "theorems": [
    "Ellipy.MV.C75_triu",
    "Ellipy.MV.C75_transpose",
    "Ellipy.MV.C75_symmetric_partial",
    "Ellipy.MV.C75_symmetric_fixed",
    "Ellipy.MV.C75_raises_iff",
    "Ellipy.MV.C75_violated",
    "Ellipy.MV.C75_violated_row"
   ],
   "note": "The code violates the property: make_symmetric of a matrix without a time axis returns an array of shape (n,n,n), and rows or columns are broadcast to square matrices. Proved for batches of square matrices."
  },
  {
   "property": "C76",
   "status": "partial",
   "theorems": [
    "Ellipy.MV.C76_partial",
    "Ellipy.MV.C76_inverse",
    "Ellipy.MV.C76_raises_iff",
    "Ellipy.MV.C76_violated"
   ],
   "note": "The code violates the property for matrices without a time axis (IndexError). Proved for every batch."
  },
  {
   "property": "C77",
   "status": "partial",
   "theorems": [
    "Ellipy.MV.C77_from_func_partial",
    "Ellipy.MV.C77_from_func_raises_iff",
    "Ellipy.MV.C77_eval_values",
    "Ellipy.MV.C77_eval_same_partial",
    "Ellipy.MV.C77_eval_numbers",
    "Ellipy.MV.C77_eval_raises_iff",
    "Ellipy.MV.C77_violated",
    "Ellipy.MV.C77_violated_scalar_array",
    "Ellipy.MV.C77_violated_row"
   ],
   "note": "The code violates the property: values of the wrong shape are repeated silently when an axis has length one, arrays without axes raise. Proved when all values have one shape; the error cases are characterised."
  },
  {
   "property": "C78",
   "status": "partial",
   "theorems": [
    "Ellipy.MV.C78_brackets_none",
    "Ellipy.MV.C78_brackets_one",
    "Ellipy.MV.C78_brackets_two",
    "Ellipy.MV.C78_brackets_raises_iff",
    "Ellipy.MV.C78_expression_partial",
    "Ellipy.MV.C78_formula_partial",
    "Ellipy.MV.C78_empty",
    "Ellipy.MV.C78_violated",
    "Ellipy.MV.C78_violated_raises"
   ],
   "note": "The code violates the property: a text that ends with an index such as t[0] gets unbalanced brackets. Values proved for every evaluator whose result is a matrix of numbers and time series; the Python evaluator itself is a parameter."
  },
  {
   "property": "C79",
   "status": "partial",
   "theorems": [
    "Ellipy.MV.C79_partial",
    "Ellipy.MV.C79_one_vector",
    "Ellipy.MV.C79_many_vectors",
    "Ellipy.MV.C79_matrix",
    "Ellipy.MV.C79_raises_iff",
    "Ellipy.MV.C79_extra_slices",
    "Ellipy.MV.C79_violated",
    "Ellipy.MV.C79_argument_changed"
   ],
   "note": "The code violates the property: a single matrix with several vectors gives the matrix of all products, and a 1-D argument is reshaped in place. Proved for batches, and for a single matrix with a single vector."
  },
  {
   "property": "C80",
   "status": "proved",
   "theorems": [
    "Ellipy.Ell.C80_ok_iff",
    "Ellipy.Ell.C80_raises_iff",
    "Ellipy.Ell.C80_total",
    "Ellipy.Ell.C80_scalar"
   ],
   "note": "The class of the objects in an argument is a tag; iterables are arrays."
  },
  {
   "property": "C81",
   "status": "proved",
   "theorems": [
    "Ellipy.Ell.C81_raises_iff",
    "Ellipy.Ell.C81_form",
    "Ellipy.Ell.C81_balls"
   ],
   "note": "eigh reads the lower triangle; equal to the matrix itself for symmetric shape matrices."
  },
  {
   "property": "C82",
   "status": "proved",
   "theorems": [
    "Ellipy.Ell.C82_raises_iff",
    "Ellipy.Ell.C82"
   ],
   "note": ""
  },
  {
   "property": "C83",
   "status": "partial",
   "theorems": [
    "Ellipy.Ell.C83_raises_iff",
    "Ellipy.Ell.C83_dim",
    "Ellipy.Ell.C83_rank_raises_iff",
    "Ellipy.Ell.C83_rank_partial",
    "Ellipy.Ell.C83_rank_iff",
    "Ellipy.Ell.C83_rank_value",
    "Ellipy.Ell.C83_violated"
   ],
   "note": "The reported number is proved in all cases (C83_rank_value); it is the dimension of the affine hull exactly when every non-zero eigenvalue exceeds all eigenvalues times n 2^-52 (C83_rank_iff); the code fails for an ellipse with semiaxes 1 and 2^-30."
  },
  {
   "property": "C84",
   "status": "proved",
   "theorems": [
    "Ellipy.Ell.C84",
    "Ellipy.Ell.C84_empty",
    "Ellipy.Ell.C84_getters",
    "Ellipy.Ell.C84_raises_iff",
    "Ellipy.Ell.C84_key_error",
    "Ellipy.Ell.C84_line"
   ],
   "note": ""
  },
  {
   "property": "C85",
   "status": "proved",
   "theorems": [
    "Ellipy.Ell.C85"
   ],
   "note": ""
  },
  {
   "property": "C86",
   "status": "partial",
   "theorems": [
    "Ellipy.Ell.C86_partial",
    "Ellipy.Ell.C86_good",
    "Ellipy.Ell.C86_violated"
   ],
   "note": "Proved for good directions, with a criterion for them; bad directions always raise IndexError (C86_violated)."
  },
  {
   "property": "C87",
   "status": "partial",
   "theorems": [
    "Ellipy.Geom.C87_partial",
    "Ellipy.Geom.C87_any",
    "Ellipy.Geom.C87_reject",
    "Ellipy.Geom.C87_violated"
   ],
   "note": "Everything but the vectors being different: each axis chooses on its own, and for 19, 20 and 21 points a vector is returned twice (C87_violated). For any number of points: n unit vectors, vertices of the triangulation (C87_any); for more than 83886081 points the choice of one vertex per opposite pair within the tolerance 1e-8 is not covered. Exact logarithms, arc cosines and square roots."
  },
  {
   "property": "C88",
   "status": "proved",
   "theorems": [
    "Ellipy.Ell.C88",
    "Ellipy.Ell.C88_space"
   ],
   "note": "The grid of directions is within pi/n or sqrt 2/2^d of every direction (C56_dense); eps comes from the replacement of zeros"
  },
  {
   "property": "C89",
   "status": "proved",
   "theorems": [
    "Ellipy.Ell.C89",
    "Ellipy.Ell.C89_inner"
   ],
   "note": "The sum is the intersection of the external approximations over all directions, and up to the factor 1-1e-14 the closed convex hull of the internal ones."
  },
  {
   "property": "C90",
   "status": "proved",
   "theorems": [
    "Ellipy.Ell.C90",
    "Ellipy.Ell.C90_bounded"
   ],
   "note": "Composition of two calls of polar; includes the error branch when the first result is degenerate with respect to the tolerance."
  },
  {
   "property": "C91",
   "status": "proved",
   "theorems": [
    "Ellipy.Hyp.C91",
    "Ellipy.Hyp.C91_from_rep_mat",
    "Ellipy.Hyp.C91_raises_iff"
   ],
   "note": "Constructor of Hyperplane: exact acceptance condition and contents; arrays of strings or objects are not modelled."
  },
  {
   "property": "C92",
   "status": "proved",
   "theorems": [
    "Ellipy.MV.C92_inv_raises_iff",
    "Ellipy.MV.C92_inv",
    "Ellipy.MV.C92_inv_twice",
    "Ellipy.MV.C92_or_nan_raises_iff",
    "Ellipy.MV.C92_or_nan",
    "Ellipy.MV.C92_or_nan_symm",
    "Ellipy.MV.C92_or_nan_asymmetric"
   ],
   "note": "A slice counts as positive if the symmetric matrix with the same lower triangle is positive semidefinite; C92_or_nan_asymmetric records that asymmetric slices are not detected."
  },
  {
   "property": "C93",
   "status": "partial",
   "theorems": [
    "Ellipy.MV.C93_raises_iff_partial",
    "Ellipy.MV.C93_root_partial",
    "Ellipy.MV.C93_one_by_one",
    "Ellipy.MV.C93_raises_exact"
   ],
   "note": "Holds for slices that are not 1x1; non-empty arrays of 1x1 slices are always rejected (C93_one_by_one, C93_raises_exact: the rejected batches for slices of every size)."
  },
  {
   "property": "C94",
   "status": "proved",
   "theorems": [
    "Ellipy.LA.C94_raises_iff",
    "Ellipy.LA.C94_verdict",
    "Ellipy.LA.C94_invertible",
    "Ellipy.LA.C94_complete",
    "Ellipy.LA.C94_default"
   ],
   "note": "With the default tolerance 0 nothing is tested (C94_default)."
  },
  {
   "property": "C95",
   "status": "proved",
   "theorems": [
    "Ellipy.C95_specials",
    "Ellipy.C95_empty",
    "Ellipy.C95_numbers",
    "Ellipy.C95_report_specials",
    "Ellipy.C95_report_values"
   ],
   "note": "Real-valued arrays with the absolute value as the norm; the number format of the report is not modelled."
  },
  {
   "property": "C96",
   "status": "proved",
   "theorems": [
    "Ellipy.Hyp.C96_uminus",
    "Ellipy.Hyp.C96_uminus_twice",
    "Ellipy.Hyp.C96_dimension_raises_iff",
    "Ellipy.Hyp.C96_dimension",
    "Ellipy.Hyp.C96_dict_raises_iff",
    "Ellipy.Hyp.C96_dict"
   ],
   "note": "Sets are compared, since from_dict normalises the data."
  },
  {
   "property": "C97",
   "status": "proved",
   "theorems": [
    "Ellipy.C97_keys",
    "Ellipy.C97_fields",
    "Ellipy.C97_field",
    "Ellipy.C97_array",
    "Ellipy.C97_raises_iff"
   ],
   "note": "Numbers in the report are rendered by an arbitrary function."
  },
  {
   "property": "C98",
   "status": "proved",
   "theorems": [
    "Ellipy.Ell.C98",
    "Ellipy.Ell.C98_three"
   ],
   "note": "C98_three shows by example that the statement does not extend to three ellipsoids"
  },
  {
   "property": "C99",
   "status": "proved",
   "theorems": [
    "Ellipy.LA.C99",
    "Ellipy.LA.C99_sqrtm",
    "Ellipy.LA.C99_reg_mat"
   ],
   "note": "orthonormality of the eigenvectors follows for different eigenvalues (C22_distinct); reg_mat for every svd satisfying its contract"
  }
 ]
}
# Machine-checked model of ellipy — design

Source under study: `/repo/products/ellipy` (Python, numpy/scipy). Paths below are relative to
`products/ellipy/`. The Lean project is in `/verif/lean`.

## 1. Layout

* `Verif/Base/*`   – shared vocabulary: Python exceptions as values, extended floats, numpy arrays, linear-algebra contracts.
* `Verif/Model/*`  – one Lean definition per Python function, branch by branch, each with file and line citation; a comment says
  where the model is simpler than the code.
* `Verif/Spec/*`   – small specifications that do not use the helpers of the model (ellipsoids as sets of points, support
  functions, meshes, orders, measures).
* `Verif/Proofs/*` – lemmas.
* `Verif/Props/*`  – the property theorems named in MANIFEST.json; beside the theorems stand `example`s with concrete non-trivial
  cases that meet the hypotheses. `Verif/Props/Audit.lean` runs `#print axioms` on every theorem of the manifest.

## 2. Trusted base

* The Lean 4.33.0 kernel and Mathlib. Axioms used: `propext`, `Classical.choice`, `Quot.sound` only (printed for every property
  theorem by `Verif/Props/Audit.lean`). No own axioms, no `sorry`, no `native_decide`/`bv_decide`.
* The hand translation from Python to Lean, cited line by line.
* **Exact arithmetic.** A float64 is a real number (or an element of any ordered field); where the code branches on NaN or inf
  (`abs_rel_compare`, `contains`, constructors, the division in `rho_mat`, `sphere_tri_ext`) the type `XF` with `nan`, `+inf`, `-inf`
  is used. Rounding is not modelled: a theorem says what the algorithm computes, not how far the floats are from it.
* **Library contracts.** A numpy/scipy routine with a unique result is modelled by an exact definition (`@`, `inv`, `det`, `trace`, `unique`,
  `isin`, `lexsort`, `cumsum`, `linspace`, reshape, …). A routine whose result is not unique (`eigh`, `eig`, `svd`, `qr`, `lstsq`, `ConvexHull`,
  `argsort` with ties) is an arbitrary function with its documented contract (`Base/LinAlg`, `Base/Lstsq`, `Base/Hull`, `IsArgsort`); the theorems hold
  for every such function, and Lean proofs (`Proofs/LinAlg`, `Proofs/Lstsq`, `Proofs/Hull`,
  `stableArgsort_ok`) show that such functions exist.
* **Python objects.** Where aliasing matters (configuration C01–C02, ellipsoid classes C34–C39) objects, arrays and dictionaries live on a
  heap with addresses. Elsewhere values are immutable.
* **Loops.** `for` loops are folds. A `while` loop has a `fuel` argument and the result `none` when the fuel is used up; the
  theorems say for which fuel the result is `some`, or that it is `none` for every fuel (non-termination).
* **Exceptions.** A call returns `Except Exc α`. `throw_error(tag, …)` is `valueError tag`; the built-in exceptions are separate constructors.
  Messages are dropped, except in `Model/ThrowError` (C112); texts of objects are in `Model/ObjText` (C113).

## 3. Results per property

`proved`: the statement in properties.jsonl is proved for all inputs. `partial`: the code violates the statement; the theorem
suffixed `_violated` (or the note) gives the negation with a witness, and the other theorems say what does hold.

| id | property | status | theorems | note |
|----|----------|--------|----------|------|
| C01 | Settings behave like a last-write-wins store | proved | `Config.C01_last_write_wins`, `Config.C01_set_conf_repo_mgr`, `Config.C01_setter_effect`, `Config.C01_after_replacement`, `Config.C01_no_repository` | Induction over call histories, also after the repository has been replaced. |
| C02 | Snapshots of the settings are isolated; the repository object is shared | proved | `Config.C02_snapshot_isolated`, `Config.C02_writes_elsewhere_invisible`, `Config.C02_repository_shared` | Heap of dictionary objects; all later call sequences. |
| C03 | parse_prop picks explicit value over global value, in request order, without touching its input | proved | `Config.C03_parse_ok`, `Config.C03_parse_raises`, `Config.C03_parse_frame` | Both outcomes and the frame. |
| C04 | parse_prop with no name list parses every known property | partial | `Config.C04_violated`, `Config.C04_parse_all_partial` | The code violates the property: default 'on' fails the bool check. Negation proved for every args without the override; success proved with the override. |
| C05 | is_member reports membership and first positions | proved | `C05_is_member` | All lists over any linear order. |
| C06 | abs_rel_compare decides elementwise closeness | proved | `C06_verdict`, `C06_abs_diff` | verdict is the entrywise closeness relation; reported difference is the maximum |
| C07 | abs_rel_compare is reflexive, symmetric and monotone, and its report is empty exactly on success | proved | `C07_raises_iff`, `C07_report`, `C07_refl`, `C07_symm`, `C07_mono` |  |
| C08 | dict_compare accepts a structure compared with itself and reports differences only when it finds some | partial | `C08_violated`, `C08_refl_partial`, `C08_report` | false for boolean leaves (TypeError) and for [] (ValueError); proved for all other well-formed structures |
| C09 | dict_compare never calls structurally different data equal | partial | `C09_violated`, `C09_sound_partial`, `C09_complete` | false: list lengths may differ; everything else proved |
| C10 | dict_compare is symmetric | partial | `C10_violated`, `C10_symm_partial` | false for lists of unequal length; proved when lists are aligned |
| C11 | is_dependent recognises exactly whole-word occurrences of the time variable | proved | `Sym.C11_is_dependent` | regex engine fragment modelled; any class \w |
| C12 | var_replace substitutes every whole-word occurrence and nothing else | proved | `Sym.C12_var_replace`, `Sym.C12_untouched`, `Sym.C12_words`, `Sym.C12_disappears`, `Sym.C12_rename` | names made of word characters, replacement without backslashes |
| C13 | sort_rows_tol returns a permutation of the rows and its inverse | proved | `SortRows.C13_raises_iff`, `SortRows.C13_permutation` |  |
| C14 | sort_rows_tol orders rows lexicographically up to tolerance and does not depend on tie-breaking | proved | `SortRows.C14_ordered`, `SortRows.C14_independent`, `SortRows.C14_zero_tol` |  |
| C15 | sqrt_pos takes roots of numbers that are non-negative up to tolerance and rejects all others | proved | `SqrtPos.C15_scalar_raises_iff`, `SqrtPos.C15_scalar_value`, `SqrtPos.C15_array_raises_iff`, `SqrtPos.C15_array_value`, `SqrtPos.C15_scalar_array` | Scalar and array calls, raise conditions exact. |
| C16 | Batched matrix products equal slice-by-slice products, sparse or dense | partial | `MV.C16_two_partial`, `MV.C16_three_partial`, `MV.C16_sparse_raises_iff`, `MV.C16_sparse3_raises_iff`, `MV.C16_dense_raises_partial`, `MV.C16_switch`, `MV.C16_switch3`, `MV.C16_violated_one_slice`, `MV.C16_violated_shape`, `MV.C16_violated_three` | Two- and three-factor products equal the slice-wise matrix products in both code paths; single-slice and (1,k,1)-shaped second factors and 2-D third factors violate the claim, with witnesses. |
| C17 | Batched matrix-vector products agree in sparse and dense mode | proved | `MV.C17_value`, `MV.C17_raises_iff`, `MV.C17_shape_violated` | Both code paths give the slice-wise matrix-vector products; the exact set of rejected shapes is stated. |
| C18 | SVD-based batched quadratic forms agree with the direct ones | partial | `MV.C18_partial`, `MV.C18_diagonal`, `MV.C18_lr_actual`, `MV.C18_lr_vec_actual`, `MV.C18_r_vec_actual`, `MV.C18_divide_actual`, `MV.C18_violated`, `MV.C18_left_actual`, `MV.C18_left_violated`, `MV.C18_raises`, `MV.C18_flag` | The code multiplies by V where the transpose is needed: the actual results are proved for all inputs, they equal the direct products when V is symmetric, and diag(2,3,1) refutes the claim for every valid eigendecomposition. With the flag 'L' matrices A that are not square always raise and square ones give V A^T D A V^T. |
| C19 | make_pos_definite_by_eig repairs exactly the slices that need it | proved | `MV.C19_raises_iff`, `MV.C19_eigenpairs`, `MV.C19_psd`, `MV.C19_fixed` | Exact arithmetic; eigh as a contract. |
| C20 | is_mat_pos_def decides positive definiteness | proved | `LA.C20_symm`, `LA.C20_raises_iff`, `LA.C20_nearly`, `LA.C20_pos_def`, `LA.C20_sem_def` | For every eigh satisfying its contract. |
| C21 | sqrtm_pos returns the principal square root whatever eigenbasis the backend picks | proved | `LA.C21_raises_iff`, `LA.C21_tol`, `LA.C21_root` | For every eigh satisfying its contract; uniqueness of the PSD root proved. |
| C22 | reg_pos_def_mat lifts the spectrum to at least the tolerance and changes nothing else | proved | `LA.C22_raises_iff`, `LA.C22_above`, `LA.C22_fixed`, `LA.C22_lift`, `LA.C22_idempotent`, `LA.C22_distinct`, `LA.C22_eig_violated` | Eigenvector basis returned by np.linalg.eig assumed orthonormal where it is not automatic (C22_distinct: automatic for distinct eigenvalues; C22_eig_violated: needed in general). |
| C23 | reg_mat makes a square matrix safely invertible | proved | `LA.C23_raises_iff`, `LA.C23_bound`, `LA.C23_fixed` | For every svd satisfying its contract. |
| C24 | orth_transl returns an orthogonal map carrying the source direction to the destination direction | partial | `LA.C24_raises_iff`, `LA.C24_partial`, `LA.C24_feasible_iff`, `LA.C24_violated`, `LA.C24_close`, `LA.C24_ml` | Holds exactly for directions that are equal, opposite or more than 1e-7 apart (C24_feasible_iff); fails otherwise (C24_violated, error bounded by C24_close). |
| C25 | Householder and QR variants are also orthogonal translations | partial | `LA.C25_haus_nan_iff`, `LA.C25_haus_orth`, `LA.C25_haus_partial`, `LA.C25_haus_carries_iff`, `LA.C25_haus_violated`, `LA.C25_qr`, `LA.C25_qr_raises_iff` | QR variant full; the Householder variant gives NaNs for a zero vector and carries the direction exactly when the directions are equal or at squared distance at least 1e-14 (C25_haus_carries_iff). |
| C26 | orth_transl_max_tr is optimal | partial | `LA.C26_raises_iff`, `LA.C26_partial`, `LA.C26_feasible_iff`, `LA.C26_dim_one`, `LA.C26_violated`, `LA.C26_violated_near` | Holds exactly for directions that are on the first axis or more than 1e-7 away from it; otherwise the result is not orthogonal (C26_feasible_iff, C26_violated_near). In dimension one exactly for equal signs (C26_dim_one, C26_violated). |
| C27 | orth_transl_max_dir is optimal | partial | `LA.C27_raises_iff`, `LA.C27_partial`, `LA.C27_feasible_iff`, `LA.C27_violated`, `LA.C27_dim_one` | Holds in dimension one, and otherwise exactly for directions that are on the first axis or more than 1e-7 away from it; the result is not orthogonal in the other cases (C27_feasible_iff, C27_violated). |
| C28 | mat_orth completes columns to an orthonormal basis with aligned signs | proved | `LA.C28_orth`, `LA.C28_triangular`, `LA.C28_col` | For every complete QR factorisation. |
| C29 | ell_sim_diag simultaneously diagonalises | proved | `Core.C29`, `Core.C29_raises_iff`, `Core.C29_indefinite` | Positive semidefinite second argument as in the statement; for indefinite ones (accepted by the code) a valid SVD gives a non-diagonal result. |
| C30 | ell_valign rotates x onto the direction of v | proved | `Core.C30`, `Core.C30_raises_iff` | Arrays of one element are rejected (squeeze removes the axis). |
| C31 | rho_mat computes the support function and a support point | proved | `Ell.C31`, `Ell.C31_raises_iff`, `Ell.C31_single_no_tol` | rho_mat: support function and support point for every PSD shape (degenerate included), exact rejection set, and the missing tolerance on the single-direction path |
| C32 | volume is the Lebesgue measure | proved | `Ell.C32`, `Ell.C32_raises_iff`, `Ell.C32_ell_volume`, `Ell.C32_degenerate` | volume and ell_volume against Mathlib's Lebesgue measure on Fin n -> R, in every dimension; shape matrices exactly symmetric. The shape of the returned numpy array for a mix of flat and solid ellipsoids is not modelled. |
| C33 | An Ellipsoid object is always valid | proved | `Ell.C33`, `Ell.C33_shape`, `Ell.C33_center`, `Ell.C33_shape_raises`, `Ell.C33_invariant` | All argument lists of numeric arrays (complex entries, NaN/inf, any shapes) or non-arrays; arrays of strings/objects not modelled. Arguments after the second are ignored by the code, as the theorem says. |
| C34 | Only projection modifies existing objects | proved | `Ell.C34`, `Ell.C34_valid`, `Ell.C34_fresh` | for every sequence of calls; the objects, arrays and references are modelled by a heap |
| C35 | get_projection leaves its argument alone, projection updates it in place | partial | `Ell.C35_get_projection`, `Ell.C35_projection_partial`, `Ell.C35_raises_partial`, `Ell.C35_violation`, `Ell.C35_violation_twice`, `Ell.C35_violation_distinct` | get_projection: full; projection: for arrays of different objects, and no change on an exception for exactly symmetric shape matrices; the code violates the rest (witnesses) |
| C36 | projection is the shadow of the ellipsoid | partial | `Ell.C36_partial`, `Ell.C36_violation`, `Ell.C35_raises_partial` | shadow proved for positive semidefinite shape matrices; the check of orthogonality has no absolute value, so the raising clause is violated (witness) |
| C37 | Copies are faithful and independent | partial | `Ell.C37_get_copy`, `Ell.C37_rep_mat`, `Ell.C37_from_rep_mat`, `Ell.C37_independent`, `Hyp.C37_hyp_get_copy_partial`, `Hyp.C37_hyp_rep_mat_partial`, `Hyp.C37_hyp_violation` | ellipsoids: full; hyperplanes: normal, shift and absolute tolerance kept, relative tolerance lost (witness) |
| C38 | to_dict / from_dict round trip | proved | `Ell.C38` | data and properties identical; n_plot values become floats of the same value |
| C39 | Unary minus reflects the set | partial | `Ell.C39_partial`, `Ell.C39_raises_iff`, `Ell.C39_involution`, `Ell.C39_violation`, `Hyp.C39_hyp_partial`, `Hyp.C39_hyp_involution`, `Hyp.C39_hyp_only`, `Hyp.C39_hyp_violation` | ellipsoids: reflection and involution proved, tolerances not kept (witness); hyperplanes: the set stays the same, so it is the reflection only for shift zero (witness) |
| C40 | rho works elementwise on arrays of ellipsoids or directions | partial | `Ell.C40_one_ell`, `Ell.C40_one_dir`, `Ell.C40_pairs_partial`, `Ell.C40_raises`, `Ell.C40_violated` | One ellipsoid or one direction: fully. Equal numbers: for rows, columns and equal multi-dimensional shapes; a plain list of two or more ellipsoids with as many directions always raises (ell_size_vec[1]). |
| C41 | is_internal answers membership in the union or intersection | partial | `Ell.C41_partial`, `Ell.C41_flat`, `Ell.C41_violated`, `Ell.C41_raises` | Exact for arrays that are one column; every other shape, a plain list included, raises. Flat ellipsoids are regularised and no point is missed. |
| C42 | is_bigger decides inclusion of centred ellipsoids | partial | `Ell.C42_partial`, `Ell.C42_iff`, `Ell.C42_sound`, `Ell.C42_raises`, `Ell.C42_violated`, `Ell.C42_degenerate` | For a non-degenerate first ellipsoid the verdict is proved in all cases (C42_iff): the second one is inside and has not more eigenvalues above the rank threshold. So True is always right; False is right unless the ratio of the squared axes of the first ellipsoid exceeds 1/(n eps), where the rank comparison can be wrong. The regularisation of a degenerate first ellipsoid leads to an error. |
| C43 | minksum_ea encloses the Minkowski sum and touches it in the given direction | proved | `Ell.C43`, `Ell.C43_flat`, `Ell.C43_one`, `Ell.C43_raises_iff` | containment also for degenerate (regularised) ellipsoids whenever a value is returned |
| C44 | minksum_ia is inside the Minkowski sum and touches it in the given direction | partial | `Ell.C44`, `Ell.C44_touch_partial`, `Ell.C44_touch_violated`, `Ell.C44_raises_iff` | containment and relative error 1e-14 in the direction always; exact touching unless two images of the direction are nearly parallel (0 < sin <= 1e-7), where it fails (witness) |
| C45 | Internal approximations lie inside external ones | proved | `Ell.C45` | any two lists of directions |
| C46 | polar is the polar set | partial | `Ell.C46_partial`, `Ell.C46_outside_partial`, `Ell.C46_iff`, `Ell.C46_raises_iff`, `Ell.C46_array_violated`, `Ell.C46_degenerate`, `Ell.C46_outside_violated`, `Ell.C46_line_violated`, `Ell.C46_plain_partial`, `Ell.C46_plain_violated` | One non-degenerate ellipsoid: the result is the polar set exactly if the origin is inside (C46_iff), and C46_raises_iff says exactly when the call raises. Arrays of two or more always raise; every interval without the origin is accepted and gives the interval of the reciprocals (C46_line_violated); the unused second method is wrong unless the centre is the origin. |
| C47 | get_boundary returns boundary points | partial | `Ell.C47`, `Ell.C47_space`, `Ell.C47_violated`, `Ell.C47_raises`, `Ell.C47_raises_num`, `Ell.C47_factor`, `Ell.C47_factor_float` | Holds in the plane and, with the faces, in space; without the faces the call always raises in space (C47_violated); a float factor always raises (C47_factor_float) |
| C48 | Ellipsoid equality is reflexive and symmetric, and array comparison is elementwise | partial | `Ell.C48_refl`, `Ell.C48_symm_partial`, `Ell.C48_symm`, `Ell.C48_elementwise_partial`, `Ell.C48_eq_partial`, `Ell.C48_raises_iff`, `Ell.C48_scalar`, `Ell.C48_violation_symm`, `Ell.C48_violation_tol` | reflexive, symmetric and elementwise for PSD shapes; symmetry fails for size-1 arrays of different dimension numbers and the tolerance is shared by the whole array (witnesses) |
| C49 | Equality with properties included compares the properties | partial | `Ell.C49_violation`, `Ell.C49_partial` | violated: comparison with properties included always raises for non-empty arrays |
| C50 | Hyperplane equality is equality of sets | partial | `Hyp.C50_verdict`, `Hyp.C50_elementwise`, `Hyp.C50_symm`, `Hyp.C50_refl`, `Hyp.C50_partial`, `Hyp.C50_neg_iff`, `Hyp.C50_violation`, `Hyp.C50_violation_scale` | exact verdict proved; the claim fails for shift zero with a negative factor and for one-dimensional hyperplanes scaled below the tolerance (witnesses) |
| C51 | Hyperplane.contains decides membership | proved | `Hyp.C51_one_point`, `Hyp.C51_one_hyp`, `Hyp.C51_pairs`, `Hyp.C51_raises_iff`, `Hyp.onPlane_fin` | all size combinations, infinite coordinates and the exact set of rejected inputs |
| C52 | is_parallel detects exactly parallel hyperplanes | partial | `Hyp.C52_verdict`, `Hyp.C52_partial`, `Hyp.C52_one_dim`, `Hyp.C52_dims`, `Hyp.C52_arrays`, `Hyp.C52_violation`, `Hyp.C52_violation_plane`, `Hyp.C52_violation_many`, `Hyp.C52_violation_one` | parallel implies true; the converse is violated: agreement in one coordinate is enough (witnesses) |
| C53 | map_face_2_edge builds a correct face-edge incidence | proved | `Tri.C53`, `Tri.C53_raises` | For every argsort that sorts, in particular any order of ties. |
| C54 | shrink_face_tri keeps the mesh tables consistent | partial | `Tri.C54_partial`, `Tri.C54_range_partial`, `Tri.C54_uniform_partial`, `Tri.C54_violated` | Index ranges, edge incidence for every adjustment; without adjustment every row is consistent up to an exchange of the first two vertices of flat faces; full consistency when no split edge touches a kept face. The full claim is false: flat faces have the wrong vertex order (C54_violated). |
| C55 | shrink_face_tri terminates with short edges | partial | `Tri.C55_partial`, `Tri.C55_violated`, `Tri.C55_one_row` | Termination and short edges for all meshes except one-row matrices, for which the call raises IndexError exactly when a side is too long (C55_violated, C55_one_row). |
| C56 | sphere_tri yields a closed triangulated unit sphere with 10*4^d+2 vertices | proved | `Tri.C56`, `Tri.C56_fan`, `Tri.C56_apart`, `Tri.C56_dense`, `Tri.C56_raises` | All depths; numpy's argsort is a parameter with its contract; the loop's fuel is arbitrary above the depth. C56_fan: covering, no overlaps, different vertices, central symmetry. C56_apart: distances between vertices. C56_dense: size of the triangles. |
| C57 | The automatic depth is the least sufficient one | proved | `Tri.C57`, `Tri.C57_plane`, `Tri.C57_raises_iff`, `Tri.C57_inf` | An infinite number of points passes the check and the search does not end in space (C57_inf) |
| C58 | ell_tube_2_tri triangulates the tube surface exactly once | proved | `Tri.C58`, `Tri.C58_raises` | The list is a permutation of the triangles of all quads. |
| C59 | circle_part spreads unit vectors evenly | proved | `Geom.C59`, `Geom.C59_raises_iff`, `Geom.C59_range` | Exact cosines and sines. |
| C60 | Logging a message emits it once | partial | `Log.C60_partial`, `Log.C60_once`, `Log.C60_violated` | Every call adds one more handler: after k earlier calls from the same function a record is emitted k+1 times. |
| C61 | Hyperplane dictionaries keep the set | partial | `Hyp.C61_partial`, `Hyp.C61_raises_iff`, `Hyp.C61_violation` | proved unless the hyperplane is negligible; then from_dict raises (witness) |
| C62 | quad_mat and inv_mat compute the quadratic form and the inverse | proved | `Ell.C62_plain`, `Ell.C62_inv`, `Ell.C62_inv_singular`, `Ell.C62_raises_iff`, `Ell.C62_inv_mat`, `Ell.C62_inv_mat_raises_iff` | for every least squares routine satisfying its contract; singular matrices in mode inv give the minimum norm solution |
| C63 | A logger is named after the function that asked for it | proved | `Log.C63` | Names as lists of components. |
| C64 | ell_tube_discr_tri closes every ring | proved | `Tri.C64` | Exact. |
| C65 | get_rho_boundary returns support values and touching points | proved | `Ell.C65`, `Ell.C65_space`, `Ell.C65_raises`, `Ell.C65_factor` | Flat ellipsoids included; exact arithmetic |
| C66 | _get_grid_by_factor returns the scaled grid | partial | `Ell.C66_partial`, `Ell.C66_violated` | Holds in space; in the plane every call raises except for two points, where the result is wrong (C66_violated) |
| C67 | ell_fusion_lambda is the derivative condition of the smallest fused ellipsoid | proved | `Core.C67`, `Core.C67_min`, `Core.C67_encloses`, `Core.C67_raises_iff` | Sign of the value against the derivative of Lebesgue measure; volume minimiser is a zero; the fused set contains the intersection; exact error condition. |
| C68 | sup_2_boundary_2 returns the corners of the circumscribed polygon | proved | `Sup.C68`, `Sup.C68_polygon`, `Sup.C68_raises_iff` | Every least squares solver; corners of the circumscribed polygon; exact error condition. |
| C69 | sup_2_boundary_3 returns the meeting point of the supporting planes of every face | proved | `Sup.C69`, `Sup.C69_raises_iff` | Every least squares solver; uniqueness when the directions span; exact error condition. |
| C70 | sup_geom_diff_2d returns the support values of the geometric difference | partial | `Sup.C70_partial`, `Sup.C70_ccw_partial`, `Sup.C70_violated_wrap`, `Sup.C70_violated_order`, `Sup.C70_rejects`, `Sup.C70_flat` | Violated: raises when an edge of the polar polygon passes over the first direction (IndexError), and when the hull rows are not counterclockwise. Proved when the first direction is not redundant and the rows are counterclockwise. |
| C71 | sup_geom_diff_3d returns the support values of the geometric difference | partial | `Sup.C71_partial`, `Sup.C71_thick_partial`, `Sup.C71_violated_scale`, `Sup.C71_rejects` | Violated: for large sets all entries are inf because of the absolute tolerance on a determinant. Proved: every finite entry is within the stated factor of the support value, and it is finite when the triangles are thick enough. |
| C72 | is_face finds exactly the rows that are faces | partial | `Tri.C72_sound`, `Tri.C72_partial`, `Tri.C72_missed`, `Tri.C72_violated`, `Tri.C72_raises_iff` | Rows reported as faces are faces; the converse holds exactly for rows none of whose edges belongs to more than two faces; fan of three triangles is a counterexample to the full claim. |
| C73 | is_tri_equal compares triangulations up to renumbering and the tolerance | partial | `Tri.C73_sound`, `Tri.C73_self_partial`, `Tri.C73_complete_partial`, `Tri.C73_counts`, `Tri.C73_raises_iff`, `Tri.C73_violated`, `Tri.C73_violated_tol` | Equality reported implies agreement up to renumbering and tolerance; the converse is proved for vertices that agree up to an error, are separated, and have no coordinate differences close to the tolerance, and for edges with at most two faces; it is refuted without these conditions. |
| C74 | mat_dot is the normalised matrix inner product | proved | `MV.C74_value`, `MV.C74_inner`, `MV.C74_raises_iff`, `MV.C74_empty` | Any number of axes; empty matrices give nan. |
| C75 | triu, transpose and make_symmetric act slice by slice | partial | `MV.C75_triu`, `MV.C75_transpose`, `MV.C75_symmetric_partial`, `MV.C75_symmetric_fixed`, `MV.C75_raises_iff`, `MV.C75_violated`, `MV.C75_violated_row` | The code violates the property: make_symmetric of a matrix without a time axis returns an array of shape (n,n,n), and rows or columns are broadcast to square matrices. Proved for batches of square matrices. |
| C76 | MatVector.pinv solves every slice | partial | `MV.C76_partial`, `MV.C76_inverse`, `MV.C76_raises_iff`, `MV.C76_violated` | The code violates the property for matrices without a time axis (IndexError). Proved for every batch. |
| C77 | from_func and eval_func evaluate the callback once per time or slice | partial | `MV.C77_from_func_partial`, `MV.C77_from_func_raises_iff`, `MV.C77_eval_values`, `MV.C77_eval_same_partial`, `MV.C77_eval_numbers`, `MV.C77_eval_raises_iff`, `MV.C77_violated`, `MV.C77_violated_scalar_array`, `MV.C77_violated_row` | The code violates the property: values of the wrong shape are repeated silently when an axis has length one, arrays without axes raise. Proved when all values have one shape; the error cases are characterised. |
| C78 | from_expression and from_formula_mat evaluate text at all times | partial | `MV.C78_brackets_none`, `MV.C78_brackets_one`, `MV.C78_brackets_two`, `MV.C78_brackets_raises_iff`, `MV.C78_expression_partial`, `MV.C78_formula_partial`, `MV.C78_empty`, `MV.C78_violated`, `MV.C78_violated_raises` | The code violates the property: a text that ends with an index such as t[0] gets unbalanced brackets. Values proved for every evaluator whose result is a matrix of numbers and time series; the Python evaluator itself is a parameter. |
| C79 | lr_divide_vec computes a_t^T B_t^{-1} a_t | partial | `MV.C79_partial`, `MV.C79_one_vector`, `MV.C79_many_vectors`, `MV.C79_matrix`, `MV.C79_raises_iff`, `MV.C79_extra_slices`, `MV.C79_violated`, `MV.C79_argument_changed` | The code violates the property: a single matrix with several vectors gives the matrix of all products, and a 1-D argument is reshaped in place. Proved for batches, and for a single matrix with a single vector. |
| C80 | The type checks of ellipsoid arrays accept exactly instances of the class | proved | `Ell.C80_ok_iff`, `Ell.C80_raises_iff`, `Ell.C80_total`, `Ell.C80_scalar` | The class of the objects in an argument is a tag; iterables are arrays. |
| C81 | min_eig and max_eig are the extreme values of the quadratic form | proved | `Ell.C81_raises_iff`, `Ell.C81_form`, `Ell.C81_balls` | eigh reads the lower triangle; equal to the matrix itself for symmetric shape matrices. |
| C82 | trace is the sum of the squared half widths along any orthonormal basis | proved | `Ell.C82_raises_iff`, `Ell.C82` |  |
| C83 | dimension reports the dimension of the space and of the ellipsoid | partial | `Ell.C83_raises_iff`, `Ell.C83_dim`, `Ell.C83_rank_raises_iff`, `Ell.C83_rank_partial`, `Ell.C83_rank_iff`, `Ell.C83_rank_value`, `Ell.C83_violated` | The reported number is proved in all cases (C83_rank_value); it is the dimension of the affine hull exactly when every non-zero eigenvalue exceeds all eigenvalues times n 2^-52 (C83_rank_iff); the code fails for an ellipse with semiaxes 1 and 2^-30. |
| C84 | get_property reads properties under all their names | proved | `Ell.C84`, `Ell.C84_empty`, `Ell.C84_getters`, `Ell.C84_raises_iff`, `Ell.C84_key_error`, `Ell.C84_line` |  |
| C85 | ell_unitball is the unit ball | proved | `Ell.C85` |  |
| C86 | _calc_diff_one_dir computes support points of the geometric difference | partial | `Ell.C86_partial`, `Ell.C86_good`, `Ell.C86_violated` | Proved for good directions, with a criterion for them; bad directions always raise IndexError (C86_violated). |
| C87 | sphere_part returns n different directions, no two of them opposite | partial | `Geom.C87_partial`, `Geom.C87_any`, `Geom.C87_reject`, `Geom.C87_violated` | Everything but the vectors being different: each axis chooses on its own, and for 19, 20 and 21 points a vector is returned twice (C87_violated). For any number of points: n unit vectors, vertices of the triangulation (C87_any); for more than 83886081 points the choice of one vertex per opposite pair within the tolerance 1e-8 is not covered. Exact logarithms, arc cosines and square roots. |
| C88 | The points of get_boundary approximate the boundary of the ellipsoid | proved | `Ell.C88`, `Ell.C88_space` | The grid of directions is within pi/n or sqrt 2/2^d of every direction (C56_dense); eps comes from the replacement of zeros |
| C89 | The approximations in all directions determine the Minkowski sum | proved | `Ell.C89`, `Ell.C89_inner` | The sum is the intersection of the external approximations over all directions, and up to the factor 1-1e-14 the closed convex hull of the internal ones. |
| C90 | The polar of the polar is the original ellipsoid | proved | `Ell.C90`, `Ell.C90_bounded` | Composition of two calls of polar; includes the error branch when the first result is degenerate with respect to the tolerance. |
| C91 | A Hyperplane object consists of exactly the data given, and only finite data are accepted | proved | `Hyp.C91`, `Hyp.C91_from_rep_mat`, `Hyp.C91_raises_iff` | Constructor of Hyperplane: exact acceptance condition and contents; arrays of strings or objects are not modelled. |
| C92 | Inverses of matrix arrays are taken slice by slice, and exactly the matrices with a negative eigenvalue are replaced by nan | proved | `MV.C92_inv_raises_iff`, `MV.C92_inv`, `MV.C92_inv_twice`, `MV.C92_or_nan_raises_iff`, `MV.C92_or_nan`, `MV.C92_or_nan_symm`, `MV.C92_or_nan_asymmetric` | A slice counts as positive if the symmetric matrix with the same lower triangle is positive semidefinite; C92_or_nan_asymmetric records that asymmetric slices are not detected. |
| C93 | SquareMatVector.sqrtm_pos takes the positive semidefinite root of every slice | partial | `MV.C93_raises_iff_partial`, `MV.C93_root_partial`, `MV.C93_one_by_one`, `MV.C93_raises_exact` | Holds for slices that are not 1x1; non-empty arrays of 1x1 slices are always rejected (C93_one_by_one, C93_raises_exact: the rejected batches for slices of every size). |
| C94 | is_mat_not_deg says whether the matrix shrinks some unit vector below the tolerance | proved | `LA.C94_raises_iff`, `LA.C94_verdict`, `LA.C94_invertible`, `LA.C94_complete`, `LA.C94_default` | With the default tolerance 0 nothing is tested (C94_default). |
| C95 | abs_rel_compare returns the largest differences | proved | `C95_specials`, `C95_empty`, `C95_numbers`, `C95_report_specials`, `C95_report_values` | Real-valued arrays with the absolute value as the norm; the number format of the report is not modelled. |
| C96 | Functions on arrays of hyperplanes act element by element | proved | `Hyp.C96_uminus`, `Hyp.C96_uminus_twice`, `Hyp.C96_dimension_raises_iff`, `Hyp.C96_dimension`, `Hyp.C96_dict_raises_iff`, `Hyp.C96_dict` | Sets are compared, since from_dict normalises the data. |
| C97 | The report of dict_compare lists the differing fields and nothing else | proved | `C97_keys`, `C97_fields`, `C97_field`, `C97_array`, `C97_raises_iff` | Numbers in the report are rendered by an arbitrary function. |
| C98 | No ellipsoid fits between the sum of two ellipsoids and minksum_ea | proved | `Ell.C98`, `Ell.C98_three` | C98_three shows by example that the statement does not extend to three ellipsoids |
| C99 | reg_pos_def_mat, reg_mat and sqrtm_pos change a matrix as little as possible | proved | `LA.C99`, `LA.C99_sqrtm`, `LA.C99_reg_mat` | orthonormality of the eigenvectors follows for different eigenvalues (C22_distinct); reg_mat for every svd satisfying its contract |
| C100 | minksum_ea respects rearrangements of the sum | proved | `Ell.C100_perm`, `Ell.C100_scale`, `Ell.C100_assoc`, `Ell.C100_neg`, `Ell.C100_proj` |  |
| C101 | volume, trace, min_eig, max_eig and rho grow with the ellipsoid | proved | `Ell.C101_volume`, `Ell.C101_eigs`, `Ell.C101_trace`, `Ell.C101_rho` |  |
| C102 | polar is the duality between points and directions | proved | `Ell.C102_rho`, `Ell.C102_inclusion`, `Ell.C102_volume` | for volumes the polar must not count as flat |
| C103 | The operators agree with the functions | partial | `Ell.C103_violation_ell`, `Ell.C103_violation_hyp`, `Ell.C103_neg_partial`, `Ell.C103_neg_hyp_partial`, `Ell.C103_violation_neg` | != and the other operators with stub functions always raise (proved for all operands); unary minus proved for ellipsoids with positive semidefinite shape and for hyperplanes in at least two dimensions, with a witness against dimension one |
| C104 | In the plane no ellipse fits between minksum_ia and the sum of two ellipses | proved | `Ell.C104`, `Ell.C104_three` | the internal approximation of a sum of two ellipses is maximal by inclusion; counterexample for three |
| C105 | The volume of minksum_ea obeys the Brunn-Minkowski inequality | proved | `Ell.C105` |  |
| C106 | minksum_ea and minksum_ia are exact for homothetic ellipsoids | proved | `Ell.C106` |  |
| C107 | The statistics of shrink_face_tri describe the run | proved | `Tri.C107`, `Tri.C107_mesh` | the sizes are plain numbers instead of vectors when there was no pass |
| C108 | is_internal agrees with get_boundary, get_rho_boundary and rho | proved | `Ell.C108_plane`, `Ell.C108_space`, `Ell.C108_rho`, `Ell.C108_rhoBoundary`, `Ell.C108_rhoBoundary_space`, `Ell.C108_support` | arrays of one ellipsoid in one column (other shapes raise, see C41) |
| C109 | is_bigger is an order up to the tolerance | proved | `Ell.C109_subset`, `Ell.C109_refl`, `Ell.C109_trans`, `Ell.C109_antisymm`, `Ell.C109_eigs`, `Ell.C109_volume`, `Ell.C109_minksum` | positive answers need the condition on the axes of C42 (WellCond) |
| C110 | Without vertex adjustment shrink_face_tri only subdivides the surface | proved | `Tri.C110`, `Tri.C110_surface` | no vertex adjustment; a face matrix with a single row raises (C55) and is excluded by the assumption that a mesh is returned |
| C111 | Projections compose, and support values, eigenvalues and traces follow them | proved | `Ell.C111_raises_iff`, `Ell.C111_compose`, `Ell.C111_rho`, `Ell.C111_rho_mat`, `Ell.C111_scalars` | Bases with exactly orthogonal columns for the composition and the eigenvalues; the directions of rho are those of the basis with unit columns. |
| C112 | Errors and warnings name the function that raised them | proved | `Log.C112_full`, `Log.C112_default`, `Log.C112_mode`, `Log.C112_throw_error`, `Log.C112_throw_warn`, `Log.C112_mode_error` | Components of module names contain no dots (they are the parts between dots). |
| C113 | The text of an object shows its data and nothing else | partial | `Text.C113_ell`, `Text.C113_ell_layout`, `Text.C113_raises_iff`, `Text.C113_hyp_iff`, `Text.C113_hyp_layout`, `Text.C113_hyp_partial`, `Text.C113_hyp_violation` | Hyperplanes through the origin keep the sign of the given normal: x = 0 and -x = 0 are the same set with different texts (C113_hyp_violation). |
| C114 | shrink_face_tri keeps closed surfaces closed | proved | `Tri.C114_closed`, `Tri.C114_surface` | Invariant of the refinement loop: in a pass the uses of a new edge are two or those of an old edge. The statement is about the face-to-edge table; the adjustment must return as many vertices as it is given. |
| C115 | Triangulations are consistently oriented | partial | `Tri.C115_partial`, `Tri.C115_violated`, `Tri.C115_volume`, `Tri.C115_sphere`, `Tri.C115_tube` | tube, sphere and volume proved in full; directions after shrink_face_tri proved when in every pass triangles with a common edge are all split or all left (any adjustment), with a tetrahedron as witness against the general claim |
| C116 | Objects take the settings in force when they are created, and keep them | proved | `Session.C116_ellipsoid`, `Session.C116_hyperplane`, `Session.C116_kept`, `Session.C116_kept_hyperplane`, `Session.C116_settings_kept`, `Session.C116_other_keywords` | objects with an infinite tolerance are not modelled (the constructor model answers none) |
| C117 | dict_compare says yes in exactly known cases, and its tolerances behave like distances | proved | `C117_exact`, `C117_mono`, `C117_trans`, `C117_abs_triangle`, `C117_ellipsoids` | asymmetry of list lengths is part of the exact description (C09, C10 record it as a violation) |
| C118 | lr_multiply and lr_multiply_by_vec are the two-sided products, slice by slice | partial | `MV.C118_right`, `MV.C118_left`, `MV.C118_matrix`, `MV.C118_single_partial`, `MV.C118_raises_iff`, `MV.C118_flip`, `MV.C118_compose`, `MV.C118_vec`, `MV.C118_vec_raises_iff`, `MV.C118_preserves`, `MV.C118_violated_batch`, `MV.C118_violated_longer` | The code violates the property for one matrix B and a batch A: all matrices of A but the first are ignored (C118_violated_batch); a batch A longer than B is cut silently (C118_violated_longer). Everything else is proved in full. |
| C119 | Moving ellipsoids moves what the functions return | proved | `Ell.C119_scalars`, `Ell.C119_bigger`, `Ell.C119_internal`, `Ell.C119_rho`, `Ell.C119_boundary`, `Ell.C119_boundary_factor`, `Ell.C119_rho_boundary`, `Ell.C119_rho_boundary_factor`, `Ell.C119_minksum_ea`, `Ell.C119_minksum_ia` | Equalities of results (including exceptions) for moved ellipsoids; no hypotheses on the shape matrices or on the routines of numpy. Exact arithmetic: with floats the sums are rounded. |
| C120 | Linear maps: turning, mirroring and stretching ellipsoids carries the results along | proved | `Ell.C120_set`, `Ell.C120_rho`, `Ell.C120_internal`, `Ell.C120_minksum_ea`, `Ell.C120_turn_minksum_ea`, `Ell.C120_turn_minksum_ia`, `Ell.C120_turn_sqrtm`, `Ell.C120_turn_transl`, `Ell.C120_volume`, `Ell.C120_turn_scalars`, `Ell.C120_bigger`, `Ell.C120_turn_answers`, `Ell.C120_polar` | Exact equality of the returned values; is_internal for columns of ellipsoids (see C41), is_bigger for well conditioned shapes (see C42), polar with the origin inside (see C46). |
| C121 | Only the direction of a direction counts | proved | `Ell.C121_scale`, `Ell.C121_columns`, `Ell.C121_rho` | Scaling holds for all lists of ellipsoids including the error results; the column part needs at least two ellipsoids (with one, the copies are returned); the part on rho needs a PSD shape. |
| C122 | The sizes of the approximations of a sum against the sizes of the summands | proved | `Ell.C122_ea`, `Ell.C122_ia` | Nondegenerate summands, as in C43 and C44; the bounds for minksum_ea on the trace use its closed form, all others only the inclusions. |
| C123 | The operations on arrays of matrices obey the laws of matrix algebra together | proved | `MV.C123_assoc`, `MV.C123_transpose`, `MV.C123_vec`, `MV.C123_linear`, `MV.C123_inv`, `MV.C123_inv_product`, `MV.C123_root`, `MV.C123_divide` | Arrays with three axes and the same number of times; the mixed shapes that break r_multiply are recorded under C16. In C123_inv_product and C123_root the arrays of inv and sqrtm_pos are read as matrices slice by slice. |
| C124 | sort_rows_tol: sorting again, shuffled rows, other units | proved | `SortRows.C124_unique`, `SortRows.C124_again`, `SortRows.C124_sorted`, `SortRows.C124_large_tol`, `SortRows.C124_shuffle`, `SortRows.C124_shuffle_entries`, `SortRows.C124_shuffle_zero`, `SortRows.C124_units` | Two runs of sort_rows_tol compared, for arbitrary argsort functions meeting the contract; exact arithmetic over any ordered field. |
| C125 | Laws of the matrix square root, the definiteness test and the matrix repairs | proved | `LA.C125_square`, `LA.C125_scale`, `LA.C125_conj`, `LA.C125_commute`, `LA.C125_product`, `LA.C125_inverse`, `LA.C125_mono`, `LA.C125_test_scale`, `LA.C125_test_conj`, `LA.C125_test_add`, `LA.C125_reg_again`, `LA.C125_by_eig_again` | Every call may use its own backend and tolerance; exact arithmetic over the reals. is_mat_pos_def is compared for matrices with at least one row (an empty matrix raises, C20). |
| C126 | Which orthogonal matrix orth_transl, orth_transl_haus and orth_transl_qr return | proved | `LA.C126_rest`, `LA.C126_plane`, `LA.C126_back`, `LA.C126_lengths`, `LA.C126_turn`, `LA.C126_det`, `LA.C126_agree`, `LA.C126_least`, `LA.C126_haus_least`, `LA.C126_haus` | Exact arithmetic over the reals. The restriction to equal, opposite or well separated directions is part of the statement; between the thresholds orth_transl is not orthogonal (C24). |
| C127 | Laws of Hyperplane.contains and is_parallel across calls | proved | `Hyp.C127_affine`, `Hyp.C127_scale`, `Hyp.C127_uminus`, `Hyp.C127_irrelevant`, `Hyp.C127_distance`, `Hyp.C127_segment`, `Hyp.C127_crossing`, `Hyp.C127_apart`, `Hyp.C127_tolerance`, `Hyp.C127_one_by_one`, `Hyp.C127_par_symm`, `Hyp.C127_par_scale`, `Hyp.C127_par_axes`, `Hyp.C127_par_tolerance`, `Hyp.C127_par_arrays` | Exact arithmetic over the reals. Answers are compared with the kind of exception forgotten (toOption). |
| C128 | var_replace is substitution in formulas | proved | `Sym.C128_unique`, `Sym.C128_value`, `Sym.C128_rename`, `Sym.C128_evaluate`, `Sym.C128_compose`, `Sym.C128_commute`, `Sym.C128_again`, `Sym.C128_conditional` | Grammar in Spec/Formula.lean (numbers without exponents; the replaced name is not the name of a function). C128_conditional shows what happens outside the grammar. |
| C129 | Laws of is_internal across calls | proved | `Ell.C129_join`, `Ell.C129_same`, `Ell.C129_modes`, `Ell.C129_points`, `Ell.C129_convex`, `Ell.C129_mirror`, `Ell.C129_star`, `Ell.C129_grow`, `Ell.C129_routines` | Works for every region the eigenvalue routines give to a flat ellipsoid; C129_grow and C129_routines are for non-degenerate ones. Arrays that are not one column raise (C41_violated). |
| C130 | What the values and the points of rho say about the ellipsoid | proved | `Ell.C130_calls`, `Ell.C130_width`, `Ell.C130_points`, `Ell.C130_lipschitz`, `Ell.C130_determine` | All five for positive semidefinite shapes. |
| C131 | Finer grids contain the coarser ones | proved | `Tri.C131_kept`, `Tri.C131_sphere`, `Tri.C131_parts`, `Tri.C131_ext`, `Tri.C131_circle`, `Ell.C131_boundary`, `Ell.C131_boundary_plane` | For every argsort routine. The four parts of a triangle are stated with the vertices as points, in any order. |
| C132 | Which columns mat_orth returns | proved | `LA.C132_columns`, `LA.C132_routines`, `LA.C132_fixed`, `LA.C132_twice`, `LA.C132_turned`, `LA.C132_steps`, `LA.C132_signs`, `LA.C132_first`, `LA.C132_dependent` | For every pair of QR routines; the last theorem shows that independence is needed. |
| C133 | What the diagonal of ell_sim_diag says, and how the results of ell_valign fit together | proved | `Core.C133_monotone`, `Core.C133_coordinates`, `Core.C133_ratios`, `Core.C133_exchange`, `Core.C133_turns` | C133_coordinates with the identity as change of coordinates is independence of the routines. |
| C134 | The polygon whose corners sup_2_boundary_2 returns | proved | `Sup.C134_linear`, `Sup.C134_affine`, `Sup.C134_polygon`, `Sup.C134_circle` | Linear and affine laws, the hull of the corners, and the distance of the polygon from the set. |
| C135 | Laws of is_tri_equal across calls | proved | `Tri.C135_symm`, `Tri.C135_face_order`, `Tri.C135_units`, `Tri.C135_chain`, `Tri.C135_exact`, `Tri.C135_trans`, `Tri.C135_moved`, `Tri.C135_sphere` | The laws hold for all inputs of the model; the exact characterisation is for surfaces without repeated vertices or faces. |
| C136 | The polyhedron whose corners sup_2_boundary_3 returns | proved | `Sup.C136_linear`, `Sup.C136_affine`, `Sup.C136_hull`, `Sup.C136_sphere`, `Sup.C136_ellipsoid` | exact arithmetic; numpy.linalg.lstsq by its contract (a least squares solution) |
| C137 | Laws of parse_prop across calls | proved | `Config.C137_split`, `Config.C137_again`, `Config.C137_order`, `Config.C137_others`, `Config.C137_setting`, `Config.C137_round`, `Config.C137_getter` |  |
| C138 | The sign of ell_fusion_lambda leads to the smallest fused ellipsoid | proved | `Core.C138_sign`, `Core.C138_zero`, `Core.C138_unique`, `Core.C138_bracket`, `Core.C138_swap`, `Core.C138_move`, `Core.C138_coordinates` | exact arithmetic; ellipsoids given by the matrices of their inequalities, as the function takes them |
| C139 | Comparing ellipsoids and the distance between their sets | proved | `Ell.C139_near`, `Ell.C139_same`, `Ell.C139_close`, `Ell.C139_looser`, `Ell.C139_place` | single comparison with ==; exact real arithmetic |
| C140 | quad_mat tells the points of an ellipsoid and its widths | proved | `Ell.C140_flat`, `Ell.C140_member`, `Ell.C140_width`, `Ell.C140_least`, `Ell.C140_scale`, `Ell.C140_inverse`, `Ell.C140_coordinates` | exact real arithmetic; least squares by its contract |
| C141 | Laws of mat_dot across calls | proved | `MV.C141_linear`, `MV.C141_norm`, `MV.C141_orthogonal`, `MV.C141_determines` | slices of size 1 and more (empty slices give nan, C74_empty) |
| C142 | Small changes of a matrix change the results little | proved | `Ell.C142_sqrtm`, `Ell.C142_sqrtm_psd`, `Ell.C142_pos_def`, `Ell.C142_sem_def`, `Ell.C142_eigs`, `Ell.C142_trace`, `Ell.C142_rho` | formNear_of_entries turns a bound on the entries into a bound on the forms |
| C143 | Laws of is_member across calls | proved | `C143_split`, `C143_more`, `C143_shuffle`, `C143_self`, `C143_back`, `C143_rename` |  |
| C144 | Laws of abs_rel_compare across calls | proved | `C144_zero`, `C144_rel_zero`, `C144_two`, `C144_least`, `C144_rearrange`, `C144_pieces`, `C144_units` |  |
| C145 | Matrices that differ by factors give results that differ by known factors | proved | `Ell.C145_sqrtm`, `Ell.C145_inv`, `Ell.C145_volume`, `Ell.C145_eigs`, `Ell.C145_rho`, `Ell.C145_ea` |  |
| C146 | Rearranging the summands of minksum_ia | proved | `Ell.C146_order`, `Ell.C146_swap`, `Ell.C146_merge`, `Ell.C146_merge_first`, `Ell.C146_merge_ea`, `Ell.C146_scale` | Exact arithmetic; eigenvalue routines arbitrary within their contract. |
| C147 | Laws of sup_geom_diff_2d and sup_geom_diff_3d across calls | proved | `Sup.C147_common`, `Sup.C147_mono`, `Sup.C147_upper`, `Sup.C147_scale`, `Sup.C147_super`, `Sup.C147_shift`, `Sup.C147_again` | Exact arithmetic. The conditions on the rows and on the first direction are those under which C70 holds; without them the function raises (C70_violated_wrap, C70_violated_order). |
| C148 | make_pos_definite_by_eig changes a matrix as little as possible, and its laws across calls | proved | `MV.C148_nearest`, `MV.C148_contracts`, `MV.C148_split`, `MV.C148_value`, `MV.C148_units`, `MV.C148_root` | Exact arithmetic; np.linalg.eigh arbitrary within its contract. |
| C149 | Laws of shrink_face_tri across calls | proved | `Tri.C149_similar`, `Tri.C149_prefix`, `Tri.C149_noop`, `Tri.C149_again` | exact arithmetic; the loop is run with fuel |
| C150 | volume, trace, min_eig and max_eig of one ellipsoid and of its polar fit together | proved | `Ell.C150_trace`, `Ell.C150_volume`, `Ell.C150_polar` | exact arithmetic |
| C151 | Laws of map_face_2_edge and is_face across calls | proved | `Tri.C151_same_sides`, `Tri.C151_sort`, `Tri.C151_renumber`, `Tri.C151_part`, `Tri.C151_is_face` |  |
| C152 | Laws of the points of circle_part, and the ellipsoid read off the points of get_boundary | proved | `Geom.C152_circle`, `Geom.C152_split`, `Geom.C152_turn`, `Ell.C152_plane`, `Ell.C152_space` | Balance, halves and turns of circle_part; mean and second moments of the boundary points, with the bound in terms of machine epsilon that the code's replacement of zeros requires. |
| C153 | Laws of ell_tube_2_tri and ell_tube_discr_tri across calls | proved | `Tri.C153_glue`, `Tri.C153_turn`, `Tri.C153_corners`, `Tri.C153_rings`, `Tri.C153_lines` | Gluing, turning, numbers of triangles at the vertices, rings, and the lines as edges of the triangles. |
| C154 | What the values of lr_divide_vec say about ellipsoids, and its laws across calls | proved | `MV.C154_units`, `MV.C154_coordinates`, `MV.C154_extremal`, `MV.C154_ellipsoid`, `MV.C154_order`, `MV.C154_parallelogram`, `MV.C154_quad_mat` | Stated for arrays with as many vectors as slices; singular slices and the other shapes are the subject of C79. |
| C155 | Closed form and laws of _calc_diff_one_dir | proved | `Ell.C155_value`, `Ell.C155_move`, `Ell.C155_lengths`, `Ell.C155_opposite`, `Ell.C155_exchange`, `Ell.C155_select`, `Ell.C155_same_shape` | closed form of the points and relations between calls, exact arithmetic |
| C156 | Laws of from_func and eval_func across calls | proved | `MV.C156_times`, `MV.C156_append`, `MV.C156_prefix`, `MV.C156_eval_from`, `MV.C156_eval_id`, `MV.C156_eval_eval`, `MV.C156_numbers_values` | relations between calls |
| C157 | Projections against polar, is_internal, is_bigger and minksum_ia | proved | `Ell.C157_polar`, `Ell.C157_internal`, `Ell.C157_internal_lift`, `Ell.C157_bigger`, `Ell.C157_minksum_ia` | relations between calls, exact arithmetic |
| C158 | rho of ellipsoids against Hyperplane.contains and Hyperplane.is_parallel | proved | `Hyp.C158_touch`, `Hyp.C158_opposite`, `Hyp.C158_meet`, `Hyp.C158_separate`, `Hyp.C158_between` | Exact real arithmetic. Hyperplanes are built with the values of rho as shifts, normals unchanged. |
| C159 | Laws of sphere_part across calls | proved | `Geom.C159_prefix`, `Geom.C159_pole`, `Geom.C159_repeats` | Exact logarithms, arc cosines and square roots; numpy's argsort is a parameter with its contract. |
| C160 | Circumscribed polygons and polyhedra: circle_part, sphere_tri, rho, sup_2_boundary_2, sup_2_boundary_3, min_eig and max_eig together | proved | `Ell.C160_ellipse`, `Ell.C160_sum`, `Ell.C160_space` | Composition of calls in exact real arithmetic; the bounds need not be sharp. |
| C161 | What the functions return for ell_unitball | proved | `Ell.C161_object`, `Ell.C161_rho`, `Ell.C161_numbers`, `Ell.C161_polar`, `Ell.C161_minksum`, `Ell.C161_internal` | roundN n r is the object with centre zero and matrix r^2 times the identity; the first theorem says that ell_unitball returns it for r = 1 and which points it has. rho takes the object as an array of shape (), is_internal as a column (see C41), polar as an array with one element (see C46). Exact arithmetic. |
| C162 | The area and volume enclosed by the points of get_boundary against volume | proved | `Ell.C162_plane`, `Ell.C162_space` | eps is the machine epsilon, by which get_boundary replaces zeros (see C47). lineArea and surfVolume are the usual sums over segments and triangles; they are not compared with the Lebesgue measure of the polygon. Exact arithmetic. |
| C163 | The volume of the Minkowski sum lies between the volumes of its approximations and obeys the Brunn-Minkowski inequality | proved | `Ell.C163` | The tolerance condition keeps the external approximations above the tolerance below which volume reports 0. |
| C164 | polar of the approximations of a Minkowski sum | proved | `Ell.C164_ea`, `Ell.C164_all`, `Ell.C164_ia` | polar takes an array with one element (see C46). Exact arithmetic. |

## 4. Where the code differs from what one would expect

Found while stating and proving the theorems; each item is a theorem or part of one.

* **Configuration.** C04: `parse_prop` without a list of names raises under the default settings, because the default 'on' fails the check for bool.
* **Comparison.** C08–C10: boolean leaves and empty lists raise, lists of different lengths compare equal on the common part.
* **Formulas.** C128: `var_replace` removes blanks also between words, so a conditional expression `a if t else b` becomes the single name `aiftelseb`.
* **Matrix vectors.** C16: the dense three-factor product rejects 2-D second and third factors and ignores extra time slices; with one time slice and a
  2-D second factor the dense path raises IndexError; a second factor of shape (1,k,1) is broadcast silently; the sparse `r_multiply_by_vec` accepts a
  wrong shape of the right size. C18: `V` is used in place of its transpose; with the flag 'L' matrices `A` that are
  not square raise. C75: `make_symmetric` of an n x n matrix without a time axis returns an
  array of shape (n,n,n), and rows are broadcast to square matrices. C76: `pinv` of a matrix without a time axis raises IndexError. C77: values of
  a callback that do not fit are repeated silently when an axis has length one. C78: a text that ends with an index, such as `t[0]`, gets
  unbalanced brackets. C79: `lr_divide_vec` with a single matrix returns all mixed products; a 1-D argument is reshaped in place.
  C118: `lr_multiply` of one matrix and a batch uses only the first matrix of the batch; a batch `A` longer than `B` is cut silently.
* **Linear algebra.** C22: `np.linalg.eig` does not give orthonormal eigenvectors for repeated eigenvalues. C24–C27: directions closer than 1e-7 count as
  parallel and the result is then not orthogonal (the `_iff` theorems give the exact sets); a zero vector gives NaN in the Householder variant. C26: the
  answer in dimension one ignores the signs. C29: an indefinite second matrix is accepted. C30: one-element arrays raise.
  C31: no tolerance is used for a single direction. C62: a singular matrix in mode `inv` silently gives the minimum norm solution.
* **Ellipsoid classes.** C32: arrays that mix flat and solid ellipsoids take a numpy-dependent shape. C33: arguments after the second are ignored. C35: `projection` of an
  array that holds the same object twice projects it twice. C36: the orthogonality check lacks an absolute value. C37: the relative tolerance of a
  hyperplane is lost. C39: `uminus` drops the tolerances; for hyperplanes the set does not change. C40: a plain list of two or more
  ellipsoids with as many directions raises. C41, C46: only column-shaped (C41) or one-element (C46) arrays work. C42: the rank comparison can be
  wrong when the axes differ by more than 1/(n eps); a degenerate first ellipsoid raises (`C42_iff` gives the verdict in all other cases). C44: no touching when two images of the direction are nearly
  parallel; the results carry default properties. C46: an interval without the origin is accepted; the unused second method is
  wrong unless the centre is the origin. C47: in space `get_boundary` without the faces always raises; a float factor always raises. C48: `[[e]] == [e]` is
  False and `[e] == [[e]]` is True; one tolerance for the whole array. C49: comparison with properties always raises KeyError. C66: in the plane
  `_get_grid_by_factor` always raises or returns two points. C83: `dimension` with the rank counts semiaxes shorter than about sqrt(n) 2^-26 times
  the longest one as zero and raises for empty arrays and empty ellipsoids (`C83_rank_iff`, `C83_rank_value`). C84: `get_property` loses the shape of the array, accepts any
  name for empty arrays, and offers names of centres and matrices that work on the line only. C86: `_calc_diff_one_dir` passes a vector where `rho_mat`
  expects a column, so every bad direction raises IndexError.
* **Hyperplanes.** C50: the sign of the normal is not fixed for shift zero. C52: agreement in one coordinate makes two hyperplanes parallel; many against one
  raises. C61: hyperplanes with a negligible normal cannot be restored. C113: for shift zero the texts of `x = 0` and `-x = 0` differ although the sets are equal.
* **Triangulations.** C54: faces with one split edge that are kept flat have the wrong vertex order, and with an adjustment later splits make them
  inconsistent. C55: a face matrix with one row raises if a side is too long. C57: an infinite number of points is accepted and never answered. C87: the
  vectors returned by `sphere_part` are chosen for each axis separately, so a vector can be chosen for two axes; for 19, 20 and 21 points there are
  repeated vectors.
  C72: where three faces share an edge `is_face` finds none of them. C73: therefore such a triangulation differs from itself for `is_tri_equal`; and
  vertices that agree within the tolerance may be reported as different, because the tolerance also decides in which order they are compared.
  C115: where a split triangle meets one that is not split, the flat triangle added between them is listed from the smaller to the larger vertex of the
  common side whatever the direction of the neighbours, so the orientation of the surface becomes inconsistent.
* **Support functions.** C70: an edge of the polar polygon that passes over the first direction raises IndexError (`ind_dir > n_dirs` should be `>=`),
  and rows of `simplices` that are not counterclockwise raise or give wrong numbers. C71: the absolute tolerance 1e-5 on a determinant makes all
  entries `inf` for large sets (about 130 units and more for unit directions).
* **Matrix arrays.** C93: `SquareMatVector.sqrtm_pos` squeezes every slice, so an array of 1×1 matrices is always rejected as not square.
  C92: `make_pos_definite_or_nan` looks at the lower triangle only, so a matrix that is neither symmetric nor positive may be kept. C94: with its
  default tolerance 0 `is_mat_not_deg` accepts every matrix, the zero matrix too.
* **Operators.** C103: `ne`, `ge`, `gt`, `le`, `lt`, `plus`, `minus` and `mtimes` have the body `pass`, but the operators use their results. So `x != y`
  raises TypeError and `<`, `<=`, `>`, `>=`, `+`, `-`, `*` raise AttributeError for all operands. `-(-h) == h` fails for one-dimensional
  hyperplanes below the default tolerance, because `uminus` drops the tolerances.
* **Minkowski sums.** C98 (a limit of the method rather than a defect): for three ellipsoids `minksum_ea` need not be minimal by inclusion. C104: for three ellipses `minksum_ia` need not be maximal by inclusion.
* **Logging.** C60: every `get_logger` call adds one more handler, so messages are repeated.

## 5. Not modelled

Rounding, performance, how numpy writes numbers in texts (arbitrary in C113), plotting stubs, methods whose body is `pass` (except through the operators, C103), abstract-class machinery, the filters of the module `warnings`, the Python
evaluation of text (`eval` in `from_expression` is an arbitrary function) and arrays of strings or objects as numeric arguments.

## 6. Tests of the theorems

`seeded/LOG.jsonl` records the wrong programs tried: each line names the definition edited in a scratch copy, the edit, the claim it breaks and the
declarations that failed to compile.

What `caught` means: the build of the edited copy failed. This is weaker than "the property theorem is false for the wrong program".

* In about half of the caught lines the first failure is in a helper lemma, an example or a lemma about the model, and the build stops before the property
  theorem (`failed` then names no `Cnn` theorem). Such a line shows that the proofs depend on the edited text, not by itself that the statement excludes the edit.
* Also where a `Cnn` theorem is named, it may be only its proof script that fails. This happened for C86: the script repeats the number `1e-14`, so a smaller
  number was `caught`, but after adapting the script the unchanged statement was provable for the wrong program. The theorem has been tightened.
* For C114 the edits stop in a helper lemma; that they falsify the statement was confirmed separately by running a transliteration of the edited step.

Survivors: two led to tightened theorems (C77, C86). The others do not change the behaviour covered by the properties, and their lines say why.

The statements were also checked for independence of the model: for every theorem of the manifest the definitions of `Verif/Model` that its type mentions,
directly or through `Verif/Spec`, were listed by a program. Besides the modelled functions and the data types, constants of the model were found in C04, C26, C27, C42, C47, C50,
C57, C65, C66, C88, C108 and C109; they are now written out in `Spec/Constants.lean` and `Spec/Config.lean`. What remains are conversions of arguments (`rectMat`, `timeLen`, `XF.toK`, `colMat`)
and the validity of stored properties (`PropVals.ok`, `Tols.ok`).

import Verif.Props.AbsRelCompare
import Verif.Props.AbsRelLaws
import Verif.Props.AbsRelNumbers
import Verif.Props.BatchAlg
import Verif.Props.BiggerOrder
import Verif.Props.Boundary
import Verif.Props.BoundaryArea
import Verif.Props.BoundaryDense
import Verif.Props.BoundaryInternal
import Verif.Props.BrunnMinkowski
import Verif.Props.ByEigLaws
import Verif.Props.CalcDiff
import Verif.Props.CalcDiffLaws
import Verif.Props.CircleLaws
import Verif.Props.CirclePart
import Verif.Props.Circumscribed
import Verif.Props.Config
import Verif.Props.Core
import Verif.Props.DictCompare
import Verif.Props.DictPass
import Verif.Props.DictReport
import Verif.Props.Directions
import Verif.Props.EllCtor
import Verif.Props.EllDim
import Verif.Props.EllDimExact
import Verif.Props.EllEigs
import Verif.Props.EllHeap
import Verif.Props.EllProps
import Verif.Props.FaceEdgeLaws
import Verif.Props.Formula
import Verif.Props.Fusion
import Verif.Props.FusionLaws
import Verif.Props.Hyperplane
import Verif.Props.HyperplaneArr
import Verif.Props.HyperplaneContains
import Verif.Props.HyperplaneCtor
import Verif.Props.HyperplaneEq
import Verif.Props.HyperplaneLaws
import Verif.Props.HyperplaneParallel
import Verif.Props.IsBigger
import Verif.Props.IsEqual
import Verif.Props.IsEqualSets
import Verif.Props.IsInternal
import Verif.Props.IsInternalLaws
import Verif.Props.IsMember
import Verif.Props.IsMemberLaws
import Verif.Props.LaLaws
import Verif.Props.LaPosDef
import Verif.Props.LaReg
import Verif.Props.LinImage
import Verif.Props.Logging
import Verif.Props.LrDivide
import Verif.Props.LrDivideLaws
import Verif.Props.LrMultiply
import Verif.Props.MatBatch
import Verif.Props.MatDot
import Verif.Props.MatDotLaws
import Verif.Props.MatExpr
import Verif.Props.MatFunc
import Verif.Props.MatFuncLaws
import Verif.Props.MatOrthLaws
import Verif.Props.MatSlices
import Verif.Props.MatVector
import Verif.Props.Minksum
import Verif.Props.MinksumAlg
import Verif.Props.MinksumAll
import Verif.Props.MinksumIaLaws
import Verif.Props.MinksumMax
import Verif.Props.MinksumMin
import Verif.Props.Monotone
import Verif.Props.Move
import Verif.Props.Nearest
import Verif.Props.Nested
import Verif.Props.NotDeg
import Verif.Props.ObjText
import Verif.Props.Operators
import Verif.Props.ParseLaws
import Verif.Props.Perturb
import Verif.Props.Polar
import Verif.Props.PolarAll
import Verif.Props.PolarDual
import Verif.Props.PolarTwice
import Verif.Props.PosDefByEig
import Verif.Props.ProjAlg
import Verif.Props.ProjLaws
import Verif.Props.QuadMat
import Verif.Props.QuadMatLaws
import Verif.Props.RelChange
import Verif.Props.Rho
import Verif.Props.RhoLaws
import Verif.Props.RhoMat
import Verif.Props.Session
import Verif.Props.ShrinkLaws
import Verif.Props.SimDiagLaws
import Verif.Props.SizesTogether
import Verif.Props.SortRows
import Verif.Props.SortRowsLaws
import Verif.Props.SphereApart
import Verif.Props.SphereDense
import Verif.Props.SphereFan
import Verif.Props.SpherePart
import Verif.Props.SpherePartLaws
import Verif.Props.SphereTri
import Verif.Props.SphereTriExt
import Verif.Props.SqrtBatch
import Verif.Props.SqrtPos
import Verif.Props.SumPolar
import Verif.Props.SumSizes
import Verif.Props.SumVolume
import Verif.Props.SupBoundary
import Verif.Props.SupGeomDiff2
import Verif.Props.SupGeomDiff3
import Verif.Props.SupGeomLaws
import Verif.Props.SupPolygon
import Verif.Props.SupPolyhedron
import Verif.Props.SupportPlanes
import Verif.Props.SvdLeft
import Verif.Props.SvdMul
import Verif.Props.Sym
import Verif.Props.ThrowError
import Verif.Props.Transl
import Verif.Props.TranslIff
import Verif.Props.TranslLaws
import Verif.Props.TranslOpt
import Verif.Props.TranslQr
import Verif.Props.TriClosed
import Verif.Props.TriEqual
import Verif.Props.TriEqualLaws
import Verif.Props.TriFaceEdge
import Verif.Props.TriGeom
import Verif.Props.TriOneRow
import Verif.Props.TriOrient
import Verif.Props.TriShrink
import Verif.Props.TriStats
import Verif.Props.TriTube
import Verif.Props.TubeLaws
import Verif.Props.TypeChecks
import Verif.Props.UnitBall
import Verif.Props.Volume

/-! Axiom audit of every theorem listed in MANIFEST.json. -/

#print axioms Ellipy.Config.C01_last_write_wins
#print axioms Ellipy.Config.C01_set_conf_repo_mgr
#print axioms Ellipy.Config.C01_setter_effect
#print axioms Ellipy.Config.C01_after_replacement
#print axioms Ellipy.Config.C01_no_repository
#print axioms Ellipy.Config.C02_snapshot_isolated
#print axioms Ellipy.Config.C02_writes_elsewhere_invisible
#print axioms Ellipy.Config.C02_repository_shared
#print axioms Ellipy.Config.C03_parse_ok
#print axioms Ellipy.Config.C03_parse_raises
#print axioms Ellipy.Config.C03_parse_frame
#print axioms Ellipy.Config.C04_violated
#print axioms Ellipy.Config.C04_parse_all_partial
#print axioms Ellipy.C05_is_member
#print axioms Ellipy.C06_verdict
#print axioms Ellipy.C06_abs_diff
#print axioms Ellipy.C07_raises_iff
#print axioms Ellipy.C07_report
#print axioms Ellipy.C07_refl
#print axioms Ellipy.C07_symm
#print axioms Ellipy.C07_mono
#print axioms Ellipy.C08_violated
#print axioms Ellipy.C08_refl_partial
#print axioms Ellipy.C08_report
#print axioms Ellipy.C09_violated
#print axioms Ellipy.C09_sound_partial
#print axioms Ellipy.C09_complete
#print axioms Ellipy.C10_violated
#print axioms Ellipy.C10_symm_partial
#print axioms Ellipy.Ell.C100_perm
#print axioms Ellipy.Ell.C100_scale
#print axioms Ellipy.Ell.C100_assoc
#print axioms Ellipy.Ell.C100_neg
#print axioms Ellipy.Ell.C100_proj
#print axioms Ellipy.Ell.C101_volume
#print axioms Ellipy.Ell.C101_eigs
#print axioms Ellipy.Ell.C101_trace
#print axioms Ellipy.Ell.C101_rho
#print axioms Ellipy.Ell.C102_rho
#print axioms Ellipy.Ell.C102_inclusion
#print axioms Ellipy.Ell.C102_volume
#print axioms Ellipy.Ell.C103_violation_ell
#print axioms Ellipy.Ell.C103_violation_hyp
#print axioms Ellipy.Ell.C103_neg_partial
#print axioms Ellipy.Ell.C103_neg_hyp_partial
#print axioms Ellipy.Ell.C103_violation_neg
#print axioms Ellipy.Ell.C104
#print axioms Ellipy.Ell.C104_three
#print axioms Ellipy.Ell.C105
#print axioms Ellipy.Ell.C106
#print axioms Ellipy.Tri.C107
#print axioms Ellipy.Tri.C107_mesh
#print axioms Ellipy.Ell.C108_plane
#print axioms Ellipy.Ell.C108_space
#print axioms Ellipy.Ell.C108_rho
#print axioms Ellipy.Ell.C108_rhoBoundary
#print axioms Ellipy.Ell.C108_rhoBoundary_space
#print axioms Ellipy.Ell.C108_support
#print axioms Ellipy.Ell.C109_subset
#print axioms Ellipy.Ell.C109_refl
#print axioms Ellipy.Ell.C109_trans
#print axioms Ellipy.Ell.C109_antisymm
#print axioms Ellipy.Ell.C109_eigs
#print axioms Ellipy.Ell.C109_volume
#print axioms Ellipy.Ell.C109_minksum
#print axioms Ellipy.Sym.C11_is_dependent
#print axioms Ellipy.Tri.C110
#print axioms Ellipy.Tri.C110_surface
#print axioms Ellipy.Ell.C111_raises_iff
#print axioms Ellipy.Ell.C111_compose
#print axioms Ellipy.Ell.C111_rho
#print axioms Ellipy.Ell.C111_rho_mat
#print axioms Ellipy.Ell.C111_scalars
#print axioms Ellipy.Log.C112_full
#print axioms Ellipy.Log.C112_default
#print axioms Ellipy.Log.C112_mode
#print axioms Ellipy.Log.C112_throw_error
#print axioms Ellipy.Log.C112_throw_warn
#print axioms Ellipy.Log.C112_mode_error
#print axioms Ellipy.Text.C113_ell
#print axioms Ellipy.Text.C113_ell_layout
#print axioms Ellipy.Text.C113_raises_iff
#print axioms Ellipy.Text.C113_hyp_iff
#print axioms Ellipy.Text.C113_hyp_layout
#print axioms Ellipy.Text.C113_hyp_partial
#print axioms Ellipy.Text.C113_hyp_violation
#print axioms Ellipy.Tri.C114_closed
#print axioms Ellipy.Tri.C114_surface
#print axioms Ellipy.Tri.C115_partial
#print axioms Ellipy.Tri.C115_violated
#print axioms Ellipy.Tri.C115_volume
#print axioms Ellipy.Tri.C115_sphere
#print axioms Ellipy.Tri.C115_tube
#print axioms Ellipy.Session.C116_ellipsoid
#print axioms Ellipy.Session.C116_hyperplane
#print axioms Ellipy.Session.C116_kept
#print axioms Ellipy.Session.C116_kept_hyperplane
#print axioms Ellipy.Session.C116_settings_kept
#print axioms Ellipy.Session.C116_other_keywords
#print axioms Ellipy.C117_exact
#print axioms Ellipy.C117_mono
#print axioms Ellipy.C117_trans
#print axioms Ellipy.C117_abs_triangle
#print axioms Ellipy.C117_ellipsoids
#print axioms Ellipy.MV.C118_right
#print axioms Ellipy.MV.C118_left
#print axioms Ellipy.MV.C118_matrix
#print axioms Ellipy.MV.C118_single_partial
#print axioms Ellipy.MV.C118_raises_iff
#print axioms Ellipy.MV.C118_flip
#print axioms Ellipy.MV.C118_compose
#print axioms Ellipy.MV.C118_vec
#print axioms Ellipy.MV.C118_vec_raises_iff
#print axioms Ellipy.MV.C118_preserves
#print axioms Ellipy.MV.C118_violated_batch
#print axioms Ellipy.MV.C118_violated_longer
#print axioms Ellipy.Ell.C119_scalars
#print axioms Ellipy.Ell.C119_bigger
#print axioms Ellipy.Ell.C119_internal
#print axioms Ellipy.Ell.C119_rho
#print axioms Ellipy.Ell.C119_boundary
#print axioms Ellipy.Ell.C119_boundary_factor
#print axioms Ellipy.Ell.C119_rho_boundary
#print axioms Ellipy.Ell.C119_rho_boundary_factor
#print axioms Ellipy.Ell.C119_minksum_ea
#print axioms Ellipy.Ell.C119_minksum_ia
#print axioms Ellipy.Sym.C12_var_replace
#print axioms Ellipy.Sym.C12_untouched
#print axioms Ellipy.Sym.C12_words
#print axioms Ellipy.Sym.C12_disappears
#print axioms Ellipy.Sym.C12_rename
#print axioms Ellipy.Ell.C120_set
#print axioms Ellipy.Ell.C120_rho
#print axioms Ellipy.Ell.C120_internal
#print axioms Ellipy.Ell.C120_minksum_ea
#print axioms Ellipy.Ell.C120_turn_minksum_ea
#print axioms Ellipy.Ell.C120_turn_minksum_ia
#print axioms Ellipy.Ell.C120_turn_sqrtm
#print axioms Ellipy.Ell.C120_turn_transl
#print axioms Ellipy.Ell.C120_volume
#print axioms Ellipy.Ell.C120_turn_scalars
#print axioms Ellipy.Ell.C120_bigger
#print axioms Ellipy.Ell.C120_turn_answers
#print axioms Ellipy.Ell.C120_polar
#print axioms Ellipy.Ell.C121_scale
#print axioms Ellipy.Ell.C121_columns
#print axioms Ellipy.Ell.C121_rho
#print axioms Ellipy.Ell.C122_ea
#print axioms Ellipy.Ell.C122_ia
#print axioms Ellipy.MV.C123_assoc
#print axioms Ellipy.MV.C123_transpose
#print axioms Ellipy.MV.C123_vec
#print axioms Ellipy.MV.C123_linear
#print axioms Ellipy.MV.C123_inv
#print axioms Ellipy.MV.C123_inv_product
#print axioms Ellipy.MV.C123_root
#print axioms Ellipy.MV.C123_divide
#print axioms Ellipy.SortRows.C124_unique
#print axioms Ellipy.SortRows.C124_again
#print axioms Ellipy.SortRows.C124_sorted
#print axioms Ellipy.SortRows.C124_large_tol
#print axioms Ellipy.SortRows.C124_shuffle
#print axioms Ellipy.SortRows.C124_shuffle_entries
#print axioms Ellipy.SortRows.C124_shuffle_zero
#print axioms Ellipy.SortRows.C124_units
#print axioms Ellipy.LA.C125_square
#print axioms Ellipy.LA.C125_scale
#print axioms Ellipy.LA.C125_conj
#print axioms Ellipy.LA.C125_commute
#print axioms Ellipy.LA.C125_product
#print axioms Ellipy.LA.C125_inverse
#print axioms Ellipy.LA.C125_mono
#print axioms Ellipy.LA.C125_test_scale
#print axioms Ellipy.LA.C125_test_conj
#print axioms Ellipy.LA.C125_test_add
#print axioms Ellipy.LA.C125_reg_again
#print axioms Ellipy.LA.C125_by_eig_again
#print axioms Ellipy.LA.C126_rest
#print axioms Ellipy.LA.C126_plane
#print axioms Ellipy.LA.C126_back
#print axioms Ellipy.LA.C126_lengths
#print axioms Ellipy.LA.C126_turn
#print axioms Ellipy.LA.C126_det
#print axioms Ellipy.LA.C126_agree
#print axioms Ellipy.LA.C126_least
#print axioms Ellipy.LA.C126_haus_least
#print axioms Ellipy.LA.C126_haus
#print axioms Ellipy.Hyp.C127_affine
#print axioms Ellipy.Hyp.C127_scale
#print axioms Ellipy.Hyp.C127_uminus
#print axioms Ellipy.Hyp.C127_irrelevant
#print axioms Ellipy.Hyp.C127_distance
#print axioms Ellipy.Hyp.C127_segment
#print axioms Ellipy.Hyp.C127_crossing
#print axioms Ellipy.Hyp.C127_apart
#print axioms Ellipy.Hyp.C127_tolerance
#print axioms Ellipy.Hyp.C127_one_by_one
#print axioms Ellipy.Hyp.C127_par_symm
#print axioms Ellipy.Hyp.C127_par_scale
#print axioms Ellipy.Hyp.C127_par_axes
#print axioms Ellipy.Hyp.C127_par_tolerance
#print axioms Ellipy.Hyp.C127_par_arrays
#print axioms Ellipy.Sym.C128_unique
#print axioms Ellipy.Sym.C128_value
#print axioms Ellipy.Sym.C128_rename
#print axioms Ellipy.Sym.C128_evaluate
#print axioms Ellipy.Sym.C128_compose
#print axioms Ellipy.Sym.C128_commute
#print axioms Ellipy.Sym.C128_again
#print axioms Ellipy.Sym.C128_conditional
#print axioms Ellipy.Ell.C129_join
#print axioms Ellipy.Ell.C129_same
#print axioms Ellipy.Ell.C129_modes
#print axioms Ellipy.Ell.C129_points
#print axioms Ellipy.Ell.C129_convex
#print axioms Ellipy.Ell.C129_mirror
#print axioms Ellipy.Ell.C129_star
#print axioms Ellipy.Ell.C129_grow
#print axioms Ellipy.Ell.C129_routines
#print axioms Ellipy.SortRows.C13_raises_iff
#print axioms Ellipy.SortRows.C13_permutation
#print axioms Ellipy.Ell.C130_calls
#print axioms Ellipy.Ell.C130_width
#print axioms Ellipy.Ell.C130_points
#print axioms Ellipy.Ell.C130_lipschitz
#print axioms Ellipy.Ell.C130_determine
#print axioms Ellipy.Tri.C131_kept
#print axioms Ellipy.Tri.C131_sphere
#print axioms Ellipy.Tri.C131_parts
#print axioms Ellipy.Tri.C131_ext
#print axioms Ellipy.Tri.C131_circle
#print axioms Ellipy.Ell.C131_boundary
#print axioms Ellipy.Ell.C131_boundary_plane
#print axioms Ellipy.LA.C132_columns
#print axioms Ellipy.LA.C132_routines
#print axioms Ellipy.LA.C132_fixed
#print axioms Ellipy.LA.C132_twice
#print axioms Ellipy.LA.C132_turned
#print axioms Ellipy.LA.C132_steps
#print axioms Ellipy.LA.C132_signs
#print axioms Ellipy.LA.C132_first
#print axioms Ellipy.LA.C132_dependent
#print axioms Ellipy.Core.C133_monotone
#print axioms Ellipy.Core.C133_coordinates
#print axioms Ellipy.Core.C133_ratios
#print axioms Ellipy.Core.C133_exchange
#print axioms Ellipy.Core.C133_turns
#print axioms Ellipy.Sup.C134_linear
#print axioms Ellipy.Sup.C134_affine
#print axioms Ellipy.Sup.C134_polygon
#print axioms Ellipy.Sup.C134_circle
#print axioms Ellipy.Tri.C135_symm
#print axioms Ellipy.Tri.C135_face_order
#print axioms Ellipy.Tri.C135_units
#print axioms Ellipy.Tri.C135_chain
#print axioms Ellipy.Tri.C135_exact
#print axioms Ellipy.Tri.C135_trans
#print axioms Ellipy.Tri.C135_moved
#print axioms Ellipy.Tri.C135_sphere
#print axioms Ellipy.Sup.C136_linear
#print axioms Ellipy.Sup.C136_affine
#print axioms Ellipy.Sup.C136_hull
#print axioms Ellipy.Sup.C136_sphere
#print axioms Ellipy.Sup.C136_ellipsoid
#print axioms Ellipy.Config.C137_split
#print axioms Ellipy.Config.C137_again
#print axioms Ellipy.Config.C137_order
#print axioms Ellipy.Config.C137_others
#print axioms Ellipy.Config.C137_setting
#print axioms Ellipy.Config.C137_round
#print axioms Ellipy.Config.C137_getter
#print axioms Ellipy.Core.C138_sign
#print axioms Ellipy.Core.C138_zero
#print axioms Ellipy.Core.C138_unique
#print axioms Ellipy.Core.C138_bracket
#print axioms Ellipy.Core.C138_swap
#print axioms Ellipy.Core.C138_move
#print axioms Ellipy.Core.C138_coordinates
#print axioms Ellipy.Ell.C139_near
#print axioms Ellipy.Ell.C139_same
#print axioms Ellipy.Ell.C139_close
#print axioms Ellipy.Ell.C139_looser
#print axioms Ellipy.Ell.C139_place
#print axioms Ellipy.SortRows.C14_ordered
#print axioms Ellipy.SortRows.C14_independent
#print axioms Ellipy.SortRows.C14_zero_tol
#print axioms Ellipy.Ell.C140_flat
#print axioms Ellipy.Ell.C140_member
#print axioms Ellipy.Ell.C140_width
#print axioms Ellipy.Ell.C140_least
#print axioms Ellipy.Ell.C140_scale
#print axioms Ellipy.Ell.C140_inverse
#print axioms Ellipy.Ell.C140_coordinates
#print axioms Ellipy.MV.C141_linear
#print axioms Ellipy.MV.C141_norm
#print axioms Ellipy.MV.C141_orthogonal
#print axioms Ellipy.MV.C141_determines
#print axioms Ellipy.Ell.C142_sqrtm
#print axioms Ellipy.Ell.C142_sqrtm_psd
#print axioms Ellipy.Ell.C142_pos_def
#print axioms Ellipy.Ell.C142_sem_def
#print axioms Ellipy.Ell.C142_eigs
#print axioms Ellipy.Ell.C142_trace
#print axioms Ellipy.Ell.C142_rho
#print axioms Ellipy.C143_split
#print axioms Ellipy.C143_more
#print axioms Ellipy.C143_shuffle
#print axioms Ellipy.C143_self
#print axioms Ellipy.C143_back
#print axioms Ellipy.C143_rename
#print axioms Ellipy.C144_zero
#print axioms Ellipy.C144_rel_zero
#print axioms Ellipy.C144_two
#print axioms Ellipy.C144_least
#print axioms Ellipy.C144_rearrange
#print axioms Ellipy.C144_pieces
#print axioms Ellipy.C144_units
#print axioms Ellipy.Ell.C145_sqrtm
#print axioms Ellipy.Ell.C145_inv
#print axioms Ellipy.Ell.C145_volume
#print axioms Ellipy.Ell.C145_eigs
#print axioms Ellipy.Ell.C145_rho
#print axioms Ellipy.Ell.C145_ea
#print axioms Ellipy.Ell.C146_order
#print axioms Ellipy.Ell.C146_swap
#print axioms Ellipy.Ell.C146_merge
#print axioms Ellipy.Ell.C146_merge_first
#print axioms Ellipy.Ell.C146_merge_ea
#print axioms Ellipy.Ell.C146_scale
#print axioms Ellipy.Sup.C147_common
#print axioms Ellipy.Sup.C147_mono
#print axioms Ellipy.Sup.C147_upper
#print axioms Ellipy.Sup.C147_scale
#print axioms Ellipy.Sup.C147_super
#print axioms Ellipy.Sup.C147_shift
#print axioms Ellipy.Sup.C147_again
#print axioms Ellipy.MV.C148_nearest
#print axioms Ellipy.MV.C148_contracts
#print axioms Ellipy.MV.C148_split
#print axioms Ellipy.MV.C148_value
#print axioms Ellipy.MV.C148_units
#print axioms Ellipy.MV.C148_root
#print axioms Ellipy.Tri.C149_similar
#print axioms Ellipy.Tri.C149_prefix
#print axioms Ellipy.Tri.C149_noop
#print axioms Ellipy.Tri.C149_again
#print axioms Ellipy.SqrtPos.C15_scalar_raises_iff
#print axioms Ellipy.SqrtPos.C15_scalar_value
#print axioms Ellipy.SqrtPos.C15_array_raises_iff
#print axioms Ellipy.SqrtPos.C15_array_value
#print axioms Ellipy.SqrtPos.C15_scalar_array
#print axioms Ellipy.Ell.C150_trace
#print axioms Ellipy.Ell.C150_volume
#print axioms Ellipy.Ell.C150_polar
#print axioms Ellipy.Tri.C151_same_sides
#print axioms Ellipy.Tri.C151_sort
#print axioms Ellipy.Tri.C151_renumber
#print axioms Ellipy.Tri.C151_part
#print axioms Ellipy.Tri.C151_is_face
#print axioms Ellipy.Geom.C152_circle
#print axioms Ellipy.Geom.C152_split
#print axioms Ellipy.Geom.C152_turn
#print axioms Ellipy.Ell.C152_plane
#print axioms Ellipy.Ell.C152_space
#print axioms Ellipy.Tri.C153_glue
#print axioms Ellipy.Tri.C153_turn
#print axioms Ellipy.Tri.C153_corners
#print axioms Ellipy.Tri.C153_rings
#print axioms Ellipy.Tri.C153_lines
#print axioms Ellipy.MV.C154_units
#print axioms Ellipy.MV.C154_coordinates
#print axioms Ellipy.MV.C154_extremal
#print axioms Ellipy.MV.C154_ellipsoid
#print axioms Ellipy.MV.C154_order
#print axioms Ellipy.MV.C154_parallelogram
#print axioms Ellipy.MV.C154_quad_mat
#print axioms Ellipy.Ell.C155_value
#print axioms Ellipy.Ell.C155_move
#print axioms Ellipy.Ell.C155_lengths
#print axioms Ellipy.Ell.C155_opposite
#print axioms Ellipy.Ell.C155_exchange
#print axioms Ellipy.Ell.C155_select
#print axioms Ellipy.Ell.C155_same_shape
#print axioms Ellipy.MV.C156_times
#print axioms Ellipy.MV.C156_append
#print axioms Ellipy.MV.C156_prefix
#print axioms Ellipy.MV.C156_eval_from
#print axioms Ellipy.MV.C156_eval_id
#print axioms Ellipy.MV.C156_eval_eval
#print axioms Ellipy.MV.C156_numbers_values
#print axioms Ellipy.Ell.C157_polar
#print axioms Ellipy.Ell.C157_internal
#print axioms Ellipy.Ell.C157_internal_lift
#print axioms Ellipy.Ell.C157_bigger
#print axioms Ellipy.Ell.C157_minksum_ia
#print axioms Ellipy.Hyp.C158_touch
#print axioms Ellipy.Hyp.C158_opposite
#print axioms Ellipy.Hyp.C158_meet
#print axioms Ellipy.Hyp.C158_separate
#print axioms Ellipy.Hyp.C158_between
#print axioms Ellipy.Geom.C159_prefix
#print axioms Ellipy.Geom.C159_pole
#print axioms Ellipy.Geom.C159_repeats
#print axioms Ellipy.MV.C16_two_partial
#print axioms Ellipy.MV.C16_three_partial
#print axioms Ellipy.MV.C16_sparse_raises_iff
#print axioms Ellipy.MV.C16_sparse3_raises_iff
#print axioms Ellipy.MV.C16_dense_raises_partial
#print axioms Ellipy.MV.C16_switch
#print axioms Ellipy.MV.C16_switch3
#print axioms Ellipy.MV.C16_violated_one_slice
#print axioms Ellipy.MV.C16_violated_shape
#print axioms Ellipy.MV.C16_violated_three
#print axioms Ellipy.Ell.C160_ellipse
#print axioms Ellipy.Ell.C160_sum
#print axioms Ellipy.Ell.C160_space
#print axioms Ellipy.Ell.C161_object
#print axioms Ellipy.Ell.C161_rho
#print axioms Ellipy.Ell.C161_numbers
#print axioms Ellipy.Ell.C161_polar
#print axioms Ellipy.Ell.C161_minksum
#print axioms Ellipy.Ell.C161_internal
#print axioms Ellipy.Ell.C162_plane
#print axioms Ellipy.Ell.C162_space
#print axioms Ellipy.Ell.C163
#print axioms Ellipy.Ell.C164_ea
#print axioms Ellipy.Ell.C164_all
#print axioms Ellipy.Ell.C164_ia
#print axioms Ellipy.MV.C17_value
#print axioms Ellipy.MV.C17_raises_iff
#print axioms Ellipy.MV.C17_shape_violated
#print axioms Ellipy.MV.C18_partial
#print axioms Ellipy.MV.C18_diagonal
#print axioms Ellipy.MV.C18_lr_actual
#print axioms Ellipy.MV.C18_lr_vec_actual
#print axioms Ellipy.MV.C18_r_vec_actual
#print axioms Ellipy.MV.C18_divide_actual
#print axioms Ellipy.MV.C18_violated
#print axioms Ellipy.MV.C18_left_actual
#print axioms Ellipy.MV.C18_left_violated
#print axioms Ellipy.MV.C18_raises
#print axioms Ellipy.MV.C18_flag
#print axioms Ellipy.MV.C19_raises_iff
#print axioms Ellipy.MV.C19_eigenpairs
#print axioms Ellipy.MV.C19_psd
#print axioms Ellipy.MV.C19_fixed
#print axioms Ellipy.LA.C20_symm
#print axioms Ellipy.LA.C20_raises_iff
#print axioms Ellipy.LA.C20_nearly
#print axioms Ellipy.LA.C20_pos_def
#print axioms Ellipy.LA.C20_sem_def
#print axioms Ellipy.LA.C21_raises_iff
#print axioms Ellipy.LA.C21_tol
#print axioms Ellipy.LA.C21_root
#print axioms Ellipy.LA.C22_raises_iff
#print axioms Ellipy.LA.C22_above
#print axioms Ellipy.LA.C22_fixed
#print axioms Ellipy.LA.C22_lift
#print axioms Ellipy.LA.C22_idempotent
#print axioms Ellipy.LA.C22_distinct
#print axioms Ellipy.LA.C22_eig_violated
#print axioms Ellipy.LA.C23_raises_iff
#print axioms Ellipy.LA.C23_bound
#print axioms Ellipy.LA.C23_fixed
#print axioms Ellipy.LA.C24_raises_iff
#print axioms Ellipy.LA.C24_partial
#print axioms Ellipy.LA.C24_feasible_iff
#print axioms Ellipy.LA.C24_violated
#print axioms Ellipy.LA.C24_close
#print axioms Ellipy.LA.C24_ml
#print axioms Ellipy.LA.C25_haus_nan_iff
#print axioms Ellipy.LA.C25_haus_orth
#print axioms Ellipy.LA.C25_haus_partial
#print axioms Ellipy.LA.C25_haus_carries_iff
#print axioms Ellipy.LA.C25_haus_violated
#print axioms Ellipy.LA.C25_qr
#print axioms Ellipy.LA.C25_qr_raises_iff
#print axioms Ellipy.LA.C26_raises_iff
#print axioms Ellipy.LA.C26_partial
#print axioms Ellipy.LA.C26_feasible_iff
#print axioms Ellipy.LA.C26_dim_one
#print axioms Ellipy.LA.C26_violated
#print axioms Ellipy.LA.C26_violated_near
#print axioms Ellipy.LA.C27_raises_iff
#print axioms Ellipy.LA.C27_partial
#print axioms Ellipy.LA.C27_feasible_iff
#print axioms Ellipy.LA.C27_violated
#print axioms Ellipy.LA.C27_dim_one
#print axioms Ellipy.LA.C28_orth
#print axioms Ellipy.LA.C28_triangular
#print axioms Ellipy.LA.C28_col
#print axioms Ellipy.Core.C29
#print axioms Ellipy.Core.C29_raises_iff
#print axioms Ellipy.Core.C29_indefinite
#print axioms Ellipy.Core.C30
#print axioms Ellipy.Core.C30_raises_iff
#print axioms Ellipy.Ell.C31
#print axioms Ellipy.Ell.C31_raises_iff
#print axioms Ellipy.Ell.C31_single_no_tol
#print axioms Ellipy.Ell.C32
#print axioms Ellipy.Ell.C32_raises_iff
#print axioms Ellipy.Ell.C32_ell_volume
#print axioms Ellipy.Ell.C32_degenerate
#print axioms Ellipy.Ell.C33
#print axioms Ellipy.Ell.C33_shape
#print axioms Ellipy.Ell.C33_center
#print axioms Ellipy.Ell.C33_shape_raises
#print axioms Ellipy.Ell.C33_invariant
#print axioms Ellipy.Ell.C34
#print axioms Ellipy.Ell.C34_valid
#print axioms Ellipy.Ell.C34_fresh
#print axioms Ellipy.Ell.C35_get_projection
#print axioms Ellipy.Ell.C35_projection_partial
#print axioms Ellipy.Ell.C35_raises_partial
#print axioms Ellipy.Ell.C35_violation
#print axioms Ellipy.Ell.C35_violation_twice
#print axioms Ellipy.Ell.C35_violation_distinct
#print axioms Ellipy.Ell.C36_partial
#print axioms Ellipy.Ell.C36_violation
#print axioms Ellipy.Ell.C37_get_copy
#print axioms Ellipy.Ell.C37_rep_mat
#print axioms Ellipy.Ell.C37_from_rep_mat
#print axioms Ellipy.Ell.C37_independent
#print axioms Ellipy.Hyp.C37_hyp_get_copy_partial
#print axioms Ellipy.Hyp.C37_hyp_rep_mat_partial
#print axioms Ellipy.Hyp.C37_hyp_violation
#print axioms Ellipy.Ell.C38
#print axioms Ellipy.Ell.C39_partial
#print axioms Ellipy.Ell.C39_raises_iff
#print axioms Ellipy.Ell.C39_involution
#print axioms Ellipy.Ell.C39_violation
#print axioms Ellipy.Hyp.C39_hyp_partial
#print axioms Ellipy.Hyp.C39_hyp_involution
#print axioms Ellipy.Hyp.C39_hyp_only
#print axioms Ellipy.Hyp.C39_hyp_violation
#print axioms Ellipy.Ell.C40_one_ell
#print axioms Ellipy.Ell.C40_one_dir
#print axioms Ellipy.Ell.C40_pairs_partial
#print axioms Ellipy.Ell.C40_raises
#print axioms Ellipy.Ell.C40_violated
#print axioms Ellipy.Ell.C41_partial
#print axioms Ellipy.Ell.C41_flat
#print axioms Ellipy.Ell.C41_violated
#print axioms Ellipy.Ell.C41_raises
#print axioms Ellipy.Ell.C42_partial
#print axioms Ellipy.Ell.C42_iff
#print axioms Ellipy.Ell.C42_sound
#print axioms Ellipy.Ell.C42_raises
#print axioms Ellipy.Ell.C42_violated
#print axioms Ellipy.Ell.C42_degenerate
#print axioms Ellipy.Ell.C43
#print axioms Ellipy.Ell.C43_flat
#print axioms Ellipy.Ell.C43_one
#print axioms Ellipy.Ell.C43_raises_iff
#print axioms Ellipy.Ell.C44
#print axioms Ellipy.Ell.C44_touch_partial
#print axioms Ellipy.Ell.C44_touch_violated
#print axioms Ellipy.Ell.C44_raises_iff
#print axioms Ellipy.Ell.C45
#print axioms Ellipy.Ell.C46_partial
#print axioms Ellipy.Ell.C46_outside_partial
#print axioms Ellipy.Ell.C46_iff
#print axioms Ellipy.Ell.C46_raises_iff
#print axioms Ellipy.Ell.C46_array_violated
#print axioms Ellipy.Ell.C46_degenerate
#print axioms Ellipy.Ell.C46_outside_violated
#print axioms Ellipy.Ell.C46_line_violated
#print axioms Ellipy.Ell.C46_plain_partial
#print axioms Ellipy.Ell.C46_plain_violated
#print axioms Ellipy.Ell.C47
#print axioms Ellipy.Ell.C47_space
#print axioms Ellipy.Ell.C47_violated
#print axioms Ellipy.Ell.C47_raises
#print axioms Ellipy.Ell.C47_raises_num
#print axioms Ellipy.Ell.C47_factor
#print axioms Ellipy.Ell.C47_factor_float
#print axioms Ellipy.Ell.C48_refl
#print axioms Ellipy.Ell.C48_symm_partial
#print axioms Ellipy.Ell.C48_symm
#print axioms Ellipy.Ell.C48_elementwise_partial
#print axioms Ellipy.Ell.C48_eq_partial
#print axioms Ellipy.Ell.C48_raises_iff
#print axioms Ellipy.Ell.C48_scalar
#print axioms Ellipy.Ell.C48_violation_symm
#print axioms Ellipy.Ell.C48_violation_tol
#print axioms Ellipy.Ell.C49_violation
#print axioms Ellipy.Ell.C49_partial
#print axioms Ellipy.Hyp.C50_verdict
#print axioms Ellipy.Hyp.C50_elementwise
#print axioms Ellipy.Hyp.C50_symm
#print axioms Ellipy.Hyp.C50_refl
#print axioms Ellipy.Hyp.C50_partial
#print axioms Ellipy.Hyp.C50_neg_iff
#print axioms Ellipy.Hyp.C50_violation
#print axioms Ellipy.Hyp.C50_violation_scale
#print axioms Ellipy.Hyp.C51_one_point
#print axioms Ellipy.Hyp.C51_one_hyp
#print axioms Ellipy.Hyp.C51_pairs
#print axioms Ellipy.Hyp.C51_raises_iff
#print axioms Ellipy.Hyp.onPlane_fin
#print axioms Ellipy.Hyp.C52_verdict
#print axioms Ellipy.Hyp.C52_partial
#print axioms Ellipy.Hyp.C52_one_dim
#print axioms Ellipy.Hyp.C52_dims
#print axioms Ellipy.Hyp.C52_arrays
#print axioms Ellipy.Hyp.C52_violation
#print axioms Ellipy.Hyp.C52_violation_plane
#print axioms Ellipy.Hyp.C52_violation_many
#print axioms Ellipy.Hyp.C52_violation_one
#print axioms Ellipy.Tri.C53
#print axioms Ellipy.Tri.C53_raises
#print axioms Ellipy.Tri.C54_partial
#print axioms Ellipy.Tri.C54_range_partial
#print axioms Ellipy.Tri.C54_uniform_partial
#print axioms Ellipy.Tri.C54_violated
#print axioms Ellipy.Tri.C55_partial
#print axioms Ellipy.Tri.C55_violated
#print axioms Ellipy.Tri.C55_one_row
#print axioms Ellipy.Tri.C56
#print axioms Ellipy.Tri.C56_fan
#print axioms Ellipy.Tri.C56_apart
#print axioms Ellipy.Tri.C56_dense
#print axioms Ellipy.Tri.C56_raises
#print axioms Ellipy.Tri.C57
#print axioms Ellipy.Tri.C57_plane
#print axioms Ellipy.Tri.C57_raises_iff
#print axioms Ellipy.Tri.C57_inf
#print axioms Ellipy.Tri.C58
#print axioms Ellipy.Tri.C58_raises
#print axioms Ellipy.Geom.C59
#print axioms Ellipy.Geom.C59_raises_iff
#print axioms Ellipy.Geom.C59_range
#print axioms Ellipy.Log.C60_partial
#print axioms Ellipy.Log.C60_once
#print axioms Ellipy.Log.C60_violated
#print axioms Ellipy.Hyp.C61_partial
#print axioms Ellipy.Hyp.C61_raises_iff
#print axioms Ellipy.Hyp.C61_violation
#print axioms Ellipy.Ell.C62_plain
#print axioms Ellipy.Ell.C62_inv
#print axioms Ellipy.Ell.C62_inv_singular
#print axioms Ellipy.Ell.C62_raises_iff
#print axioms Ellipy.Ell.C62_inv_mat
#print axioms Ellipy.Ell.C62_inv_mat_raises_iff
#print axioms Ellipy.Log.C63
#print axioms Ellipy.Tri.C64
#print axioms Ellipy.Ell.C65
#print axioms Ellipy.Ell.C65_space
#print axioms Ellipy.Ell.C65_raises
#print axioms Ellipy.Ell.C65_factor
#print axioms Ellipy.Ell.C66_partial
#print axioms Ellipy.Ell.C66_violated
#print axioms Ellipy.Core.C67
#print axioms Ellipy.Core.C67_min
#print axioms Ellipy.Core.C67_encloses
#print axioms Ellipy.Core.C67_raises_iff
#print axioms Ellipy.Sup.C68
#print axioms Ellipy.Sup.C68_polygon
#print axioms Ellipy.Sup.C68_raises_iff
#print axioms Ellipy.Sup.C69
#print axioms Ellipy.Sup.C69_raises_iff
#print axioms Ellipy.Sup.C70_partial
#print axioms Ellipy.Sup.C70_ccw_partial
#print axioms Ellipy.Sup.C70_violated_wrap
#print axioms Ellipy.Sup.C70_violated_order
#print axioms Ellipy.Sup.C70_rejects
#print axioms Ellipy.Sup.C70_flat
#print axioms Ellipy.Sup.C71_partial
#print axioms Ellipy.Sup.C71_thick_partial
#print axioms Ellipy.Sup.C71_violated_scale
#print axioms Ellipy.Sup.C71_rejects
#print axioms Ellipy.Tri.C72_sound
#print axioms Ellipy.Tri.C72_partial
#print axioms Ellipy.Tri.C72_missed
#print axioms Ellipy.Tri.C72_violated
#print axioms Ellipy.Tri.C72_raises_iff
#print axioms Ellipy.Tri.C73_sound
#print axioms Ellipy.Tri.C73_self_partial
#print axioms Ellipy.Tri.C73_complete_partial
#print axioms Ellipy.Tri.C73_counts
#print axioms Ellipy.Tri.C73_raises_iff
#print axioms Ellipy.Tri.C73_violated
#print axioms Ellipy.Tri.C73_violated_tol
#print axioms Ellipy.MV.C74_value
#print axioms Ellipy.MV.C74_inner
#print axioms Ellipy.MV.C74_raises_iff
#print axioms Ellipy.MV.C74_empty
#print axioms Ellipy.MV.C75_triu
#print axioms Ellipy.MV.C75_transpose
#print axioms Ellipy.MV.C75_symmetric_partial
#print axioms Ellipy.MV.C75_symmetric_fixed
#print axioms Ellipy.MV.C75_raises_iff
#print axioms Ellipy.MV.C75_violated
#print axioms Ellipy.MV.C75_violated_row
#print axioms Ellipy.MV.C76_partial
#print axioms Ellipy.MV.C76_inverse
#print axioms Ellipy.MV.C76_raises_iff
#print axioms Ellipy.MV.C76_violated
#print axioms Ellipy.MV.C77_from_func_partial
#print axioms Ellipy.MV.C77_from_func_raises_iff
#print axioms Ellipy.MV.C77_eval_values
#print axioms Ellipy.MV.C77_eval_same_partial
#print axioms Ellipy.MV.C77_eval_numbers
#print axioms Ellipy.MV.C77_eval_raises_iff
#print axioms Ellipy.MV.C77_violated
#print axioms Ellipy.MV.C77_violated_scalar_array
#print axioms Ellipy.MV.C77_violated_row
#print axioms Ellipy.MV.C78_brackets_none
#print axioms Ellipy.MV.C78_brackets_one
#print axioms Ellipy.MV.C78_brackets_two
#print axioms Ellipy.MV.C78_brackets_raises_iff
#print axioms Ellipy.MV.C78_expression_partial
#print axioms Ellipy.MV.C78_formula_partial
#print axioms Ellipy.MV.C78_empty
#print axioms Ellipy.MV.C78_violated
#print axioms Ellipy.MV.C78_violated_raises
#print axioms Ellipy.MV.C79_partial
#print axioms Ellipy.MV.C79_one_vector
#print axioms Ellipy.MV.C79_many_vectors
#print axioms Ellipy.MV.C79_matrix
#print axioms Ellipy.MV.C79_raises_iff
#print axioms Ellipy.MV.C79_extra_slices
#print axioms Ellipy.MV.C79_violated
#print axioms Ellipy.MV.C79_argument_changed
#print axioms Ellipy.Ell.C80_ok_iff
#print axioms Ellipy.Ell.C80_raises_iff
#print axioms Ellipy.Ell.C80_total
#print axioms Ellipy.Ell.C80_scalar
#print axioms Ellipy.Ell.C81_raises_iff
#print axioms Ellipy.Ell.C81_form
#print axioms Ellipy.Ell.C81_balls
#print axioms Ellipy.Ell.C82_raises_iff
#print axioms Ellipy.Ell.C82
#print axioms Ellipy.Ell.C83_raises_iff
#print axioms Ellipy.Ell.C83_dim
#print axioms Ellipy.Ell.C83_rank_raises_iff
#print axioms Ellipy.Ell.C83_rank_partial
#print axioms Ellipy.Ell.C83_rank_iff
#print axioms Ellipy.Ell.C83_rank_value
#print axioms Ellipy.Ell.C83_violated
#print axioms Ellipy.Ell.C84
#print axioms Ellipy.Ell.C84_empty
#print axioms Ellipy.Ell.C84_getters
#print axioms Ellipy.Ell.C84_raises_iff
#print axioms Ellipy.Ell.C84_key_error
#print axioms Ellipy.Ell.C84_line
#print axioms Ellipy.Ell.C85
#print axioms Ellipy.Ell.C86_partial
#print axioms Ellipy.Ell.C86_good
#print axioms Ellipy.Ell.C86_violated
#print axioms Ellipy.Geom.C87_partial
#print axioms Ellipy.Geom.C87_any
#print axioms Ellipy.Geom.C87_reject
#print axioms Ellipy.Geom.C87_violated
#print axioms Ellipy.Ell.C88
#print axioms Ellipy.Ell.C88_space
#print axioms Ellipy.Ell.C89
#print axioms Ellipy.Ell.C89_inner
#print axioms Ellipy.Ell.C90
#print axioms Ellipy.Ell.C90_bounded
#print axioms Ellipy.Hyp.C91
#print axioms Ellipy.Hyp.C91_from_rep_mat
#print axioms Ellipy.Hyp.C91_raises_iff
#print axioms Ellipy.MV.C92_inv_raises_iff
#print axioms Ellipy.MV.C92_inv
#print axioms Ellipy.MV.C92_inv_twice
#print axioms Ellipy.MV.C92_or_nan_raises_iff
#print axioms Ellipy.MV.C92_or_nan
#print axioms Ellipy.MV.C92_or_nan_symm
#print axioms Ellipy.MV.C92_or_nan_asymmetric
#print axioms Ellipy.MV.C93_raises_iff_partial
#print axioms Ellipy.MV.C93_root_partial
#print axioms Ellipy.MV.C93_one_by_one
#print axioms Ellipy.MV.C93_raises_exact
#print axioms Ellipy.LA.C94_raises_iff
#print axioms Ellipy.LA.C94_verdict
#print axioms Ellipy.LA.C94_invertible
#print axioms Ellipy.LA.C94_complete
#print axioms Ellipy.LA.C94_default
#print axioms Ellipy.C95_specials
#print axioms Ellipy.C95_empty
#print axioms Ellipy.C95_numbers
#print axioms Ellipy.C95_report_specials
#print axioms Ellipy.C95_report_values
#print axioms Ellipy.Hyp.C96_uminus
#print axioms Ellipy.Hyp.C96_uminus_twice
#print axioms Ellipy.Hyp.C96_dimension_raises_iff
#print axioms Ellipy.Hyp.C96_dimension
#print axioms Ellipy.Hyp.C96_dict_raises_iff
#print axioms Ellipy.Hyp.C96_dict
#print axioms Ellipy.C97_keys
#print axioms Ellipy.C97_fields
#print axioms Ellipy.C97_field
#print axioms Ellipy.C97_array
#print axioms Ellipy.C97_raises_iff
#print axioms Ellipy.Ell.C98
#print axioms Ellipy.Ell.C98_three
#print axioms Ellipy.LA.C99
#print axioms Ellipy.LA.C99_sqrtm
#print axioms Ellipy.LA.C99_reg_mat

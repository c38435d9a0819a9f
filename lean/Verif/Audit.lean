import Verif.Props.AsymDescent
import Verif.Props.Autofit
import Verif.Props.BandStructure
import Verif.Props.BandStructureGrad
import Verif.Props.BandStructureNorm
import Verif.Props.BandStructureOps
import Verif.Props.Bulk
import Verif.Props.BulkCubic
import Verif.Props.BulkHall
import Verif.Props.CG
import Verif.Props.CheckSym
import Verif.Props.CubeAll
import Verif.Props.CubeSamples
import Verif.Props.CyclicGroups
import Verif.Props.Descent
import Verif.Props.Dos
import Verif.Props.DosChemical
import Verif.Props.DosConv
import Verif.Props.DosCurve
import Verif.Props.DosEnergy
import Verif.Props.DosFermi
import Verif.Props.DosInit
import Verif.Props.DosInt
import Verif.Props.DosSecant
import Verif.Props.DosThermo
import Verif.Props.DosWarmEnergy
import Verif.Props.EigGrad
import Verif.Props.Elements
import Verif.Props.ExtraCubes
import Verif.Props.FermiPlot
import Verif.Props.FermiSamples
import Verif.Props.FermiSurface
import Verif.Props.Files
import Verif.Props.Formats
import Verif.Props.FormatsJson
import Verif.Props.FormatsSpec
import Verif.Props.Fourier
import Verif.Props.FreeElectronModel
import Verif.Props.FreeElectrons
import Verif.Props.FromDisk
import Verif.Props.Gauss
import Verif.Props.Geigh
import Verif.Props.HamiltonianAppend
import Verif.Props.HamiltonianApply
import Verif.Props.HamiltonianDiamond
import Verif.Props.HamiltonianFourier
import Verif.Props.HamiltonianSymmetrizer
import Verif.Props.HamiltonianSymmetry
import Verif.Props.HamiltonianSymmetryEx
import Verif.Props.Icosahedral
import Verif.Props.InitRef
import Verif.Props.Interpolate
import Verif.Props.KIntegral
import Verif.Props.KIntegralCache
import Verif.Props.KPath
import Verif.Props.KPlot
import Verif.Props.KPoints
import Verif.Props.KPointsTetragonal
import Verif.Props.KPointsTrigonal
import Verif.Props.Lattice
import Verif.Props.LatticeSphere
import Verif.Props.Linalg
import Verif.Props.Lipschitz
import Verif.Props.Logger
import Verif.Props.Loss
import Verif.Props.MergeAxes
import Verif.Props.Naive
import Verif.Props.NamedGroups
import Verif.Props.NamedReps
import Verif.Props.ObjExport
import Verif.Props.OptimizeBs
import Verif.Props.OptimizeCg
import Verif.Props.OptimizeTb
import Verif.Props.Phonon
import Verif.Props.QeBinary
import Verif.Props.QeCards
import Verif.Props.QeInput
import Verif.Props.QeOutput
import Verif.Props.QePrepare
import Verif.Props.QeRead
import Verif.Props.QeShow
import Verif.Props.Randomize
import Verif.Props.ReadBands
import Verif.Props.RealizeAverage
import Verif.Props.Reduce
import Verif.Props.Sharing
import Verif.Props.SimpleBands
import Verif.Props.SmearCube
import Verif.Props.SmearKernels
import Verif.Props.SpaceGroup
import Verif.Props.Subspaces
import Verif.Props.Supercell
import Verif.Props.SupercellBands
import Verif.Props.SupercellEx
import Verif.Props.Symmetrize
import Verif.Props.SymmetrizePoints
import Verif.Props.Symmetrizer
import Verif.Props.Symmetry
import Verif.Props.SymmetryClasses
import Verif.Props.SymmetryDiv
import Verif.Props.SymmetryPoints
import Verif.Props.TbModel
import Verif.Props.TbmDescent
import Verif.Props.TbmInitRef
import Verif.Props.TetraAll
import Verif.Props.TightBinding
import Verif.Props.UnitaryRep
import Verif.Props.UnitaryRepOps
import Verif.Props.Unstructured
import Verif.Props.WannierGrid

/-! Axioms of every property theorem (generated by tools/manifest.py). -/

#print axioms TB.C01_from_generator_group
#print axioms TB.C02_from_generator_minimal
#print axioms TB.C02_product
#print axioms TB.C03_from_generator_returns_iff
#print axioms TB.C03_from_generator_error
#print axioms TB.C04_constructor_accepts_iff
#print axioms TB.C04_constructor_error
#print axioms TB.C04_constructor_operations
#print axioms TB.C05_len_counts_operations
#print axioms TB.C05_len_double_counts
#print axioms TB.C06_transform
#print axioms TB.C06_dual
#print axioms TB.C06_copy
#print axioms TB.C07_r_class_size
#print axioms TB.C08_k_weight_value
#print axioms TB.C08_k_weight_range
#print axioms TB.C08_k_weight_periodic
#print axioms TB.C08_k_weight_orbit
#print axioms TB.C09_realize_points
#print axioms TB.C09_realize_unique
#print axioms TB.C09_realize_unit_cell
#print axioms TB.C10_realize_data
#print axioms TB.C11_reduce_representatives
#print axioms TB.C11_reduce_check
#print axioms TB.C11_reduce_rejects
#print axioms TB.C11_reduce_rounding_defect
#print axioms TB.C12_symmetrize_projection
#print axioms TB.C12_symmetrize_inversion
#print axioms TB.C12_symmetrize_odd_rank_ignores_inversion
#print axioms TB.C13_equivalence_classes
#print axioms TB.C13_conjugacy_classes
#print axioms TB.C14_find_classes
#print axioms TB.C15_complete_neighbors
#print axioms TB.C15_lost_without_inversion
#print axioms TB.C16_neighbor_lookup
#print axioms TB.C17_equality
#print axioms TB.C17_check
#print axioms TB.C17_duplicates_defect
#print axioms TB.C18_pointcloud_distance_zero_iff
#print axioms TB.C18_zero_iff_perm
#print axioms TB.C18_empty
#print axioms TB.C18_not_symmetric
#print axioms TB.C19_division
#print axioms TB.C19_division_terminates
#print axioms TB.C19_division_by_inversion_raises
#print axioms TB.C19_division_order_defect
#print axioms TB.C20_value
#print axioms TB.C20_hermitian
#print axioms TB.C21_periodic
#print axioms TB.C22_derivatives
#print axioms TB.C23_unit_matrix
#print axioms TB.C24_add_new
#print axioms TB.C24_add_listed
#print axioms TB.C24_duplicates_accepted
#print axioms TB.C25_limit_neighbors
#print axioms TB.C25_cleanup_neighbors
#print axioms TB.C25_limit_neighbor_count
#print axioms TB.C25_limit_count_zero
#print axioms TB.C25_limit_count_negative
#print axioms TB.C25_invariant
#print axioms TB.C26_series_sum
#print axioms TB.C26_bands_of_sum
#print axioms TB.C27_scale
#print axioms TB.C27_shift
#print axioms TB.C27_shift_not_rigid
#print axioms TB.C28_transform
#print axioms TB.C28_round_trip
#print axioms TB.C29_permute
#print axioms TB.C29_permute_repeated
#print axioms TB.C29_normalize
#print axioms TB.BS.C30_f
#print axioms TB.BS.C30_roundtrip
#print axioms TB.BS.C30_none
#print axioms TB.BS.C30_symmetry_defect
#print axioms TB.BS.C30_init
#print axioms TB.BS.C30_errors
#print axioms TB.Fmt.C31_round_trip
#print axioms TB.Fmt.C31_exact
#print axioms TB.Fmt.C31_mismatch
#print axioms TB.Fmt.C31_empty
#print axioms TB.Fmt.C31_value
#print axioms TB.Fmt.C32_content
#print axioms TB.Fmt.C32_pairs
#print axioms TB.Fmt.C32_accepts
#print axioms TB.Fmt.C32_errors
#print axioms TB.Fmt.C32_malformed
#print axioms TB.Fmt.C33_hangs
#print axioms TB.Fmt.C33_deterministic
#print axioms TB.Fmt.C33_content
#print axioms TB.Fmt.C33_accepts
#print axioms TB.Fmt.C33_errors
#print axioms TB.Fmt.C33_degeneracy_ignored
#print axioms TB.C34_loss_eq_error
#print axioms TB.C34_value
#print axioms TB.C34_zero_iff
#print axioms TB.C34_weight_scaling
#print axioms TB.C34_permutation
#print axioms TB.C34_offset_too_large
#print axioms TB.C34_raises
#print axioms TB.C35_minimum
#print axioms TB.C35_equal_counts
#print axioms TB.C35_last_offset_missed
#print axioms TB.C36_history
#print axioms TB.C36_last
#print axioms TB.C36_abort
#print axioms TB.C36_iterations
#print axioms TB.C36_error_characters
#print axioms TB.C36_perfect_fit_raises
#print axioms TB.C37_to
#print axioms TB.C37_label
#print axioms TB.C37_start
#print axioms TB.C37_to_succeeds_iff
#print axioms TB.C37_invariant
#print axioms TB.C37_list_constructor
#print axioms TB.C37_tuple_start_raises
#print axioms TB.C37_empty_list
#print axioms TB.C37_failed_call_adds_name
#print axioms TB.C38_x
#print axioms TB.C38_linear
#print axioms TB.C38_sym_x
#print axioms TB.Bulk.C39_seebeck
#print axioms TB.Bulk.C39_thermal
#print axioms TB.Bulk.C39_peltier
#print axioms TB.Bulk.C39_kelvin
#print axioms TB.Bulk.C39_conductivity
#print axioms TB.Bulk.C39_errors
#print axioms TB.Bulk.C40_formula
#print axioms TB.Bulk.C40_symmetric
#print axioms TB.Bulk.C40_semidefinite
#print axioms TB.Bulk.C40_thermal
#print axioms TB.Bulk.C40_drude
#print axioms TB.Bulk.C40_rotation
#print axioms TB.Bulk.C40_errors
#print axioms TB.FS.C41_bands
#print axioms TB.FS.C41_empty
#print axioms TB.Lat.C42_triclinic
#print axioms TB.Lat.C42_volume
#print axioms TB.Lat.C42_primitive
#print axioms TB.Lat.C42_rhombohedral
#print axioms TB.Lat.C42_cubic
#print axioms TB.Lat.C42_centred
#print axioms TB.Lat.C42_monoclinic_base
#print axioms TB.Lat.C42_errors
#print axioms TB.Lat.C43_scale
#print axioms TB.Lat.C43_idempotent
#print axioms TB.Lat.C43_left_handed
#print axioms TB.Smear.C44_true_volume
#print axioms TB.Smear.C44_unclamped_volume
#print axioms TB.Smear.C44_range
#print axioms TB.Smear.C44_monotone
#print axioms TB.Smear.C44_both
#print axioms TB.Smear.C45_derivative
#print axioms TB.Smear.C45_nonneg
#print axioms TB.Smear.C45_total
#print axioms TB.Smear.C46_sphere_true_volume
#print axioms TB.Smear.C46_sphere_radius
#print axioms TB.Smear.C46_sphere_distribution
#print axioms TB.Smear.C46_sphere_derivative
#print axioms TB.Smear.C46_tetra_true_volume
#print axioms TB.Smear.C46_tetra_derivative
#print axioms TB.Smear.C46_tetra_distribution
#print axioms TB.Smear.C46_cell_distribution
#print axioms TB.Dos.C47_states_density
#print axioms TB.Dos.C47_count
#print axioms TB.Dos.C47_cut
#print axioms TB.Dos.C47_density
#print axioms TB.Dos.C47_grid
#print axioms TB.Dos.C48_newton_iff
#print axioms TB.Dos.C48_newton_errors
#print axioms TB.Dos.C48_assertion
#print axioms TB.Dos.C48_gap
#print axioms TB.Dos.C48_ends
#print axioms TB.Dos.C48_search
#print axioms TB.Dos.C48_accuracy
#print axioms TB.Dos.C48_start
#print axioms TB.C49_terminates
#print axioms TB.C49_x0_overwritten
#print axioms TB.C49_exact
#print axioms TB.C49_exact_default
#print axioms TB.C49_energy_decreases
#print axioms TB.C49_threshold_defect
#print axioms TB.C50_direct_sum_blocks
#print axioms TB.C50_associative
#print axioms TB.C50_kron_entry
#print axioms TB.C50_multiplicative
#print axioms TB.C50_adjoint
#print axioms TB.C51_lattice_in_sphere
#print axioms TB.C51_nonpositive_radius
#print axioms TB.C52_gradient
#print axioms TB.C52_bands_grad
#print axioms TB.C52_hessian
#print axioms TB.C52_hess_ignores_overlap
#print axioms TB.C52_simple
#print axioms TB.C52_bands_simple
#print axioms TB.C52_bands_hess_simple
#print axioms TB.C53_contains_sound
#print axioms TB.C53_contains_complete
#print axioms TB.C53_contains_incomplete
#print axioms TB.C54_subgroup
#print axioms TB.C56_best_assignment
#print axioms TB.C56_zero_iff
#print axioms TB.C57_histogram
#print axioms TB.C57_equal_counts
#print axioms TB.Smear.C58_linear_exact
#print axioms TB.Smear.C58_corners
#print axioms TB.Smear.C58_grid_linear
#print axioms TB.Smear.C58_least_squares
#print axioms TB.Smear.C59_area
#print axioms TB.Smear.C59_on_plane
#print axioms TB.Smear.C60_richardson
#print axioms TB.Smear.C60_extrapolated_range
#print axioms TB.Dos.C61_bandgap
#print axioms TB.Dos.C61_gap_interval
#print axioms TB.Dos.C61_energy_range
#print axioms TB.Dos.C62_partly_filled
#print axioms TB.Dos.C62_full_band_excess
#print axioms TB.Dos.C62_total
#print axioms TB.Dos.C62_full_band_wrong
#print axioms TB.Dos.C63_samples
#print axioms TB.Dos.C63_flat
#print axioms TB.Dos.C63_average
#print axioms TB.Dos.C63_point
#print axioms TB.Dos.C64_samples
#print axioms TB.Dos.C64_right_part
#print axioms TB.Dos.C64_flat_wrong
#print axioms TB.Dos.C65_secant
#print axioms TB.Dos.C65_zero_division
#print axioms TB.Dos.C65_linear
#print axioms TB.Dos.C66_int_poly
#print axioms TB.Dos.C67_quadratic
#print axioms TB.Dos.C67_deviation
#print axioms TB.KI.C68_exact
#print axioms TB.KI.C68_sum
#print axioms TB.KI.C68_duplicate
#print axioms TB.KI.C68_zero
#print axioms TB.KI.C68_filter
#print axioms TB.KI.C69_assert
#print axioms TB.KI.C69_insulator
#print axioms TB.KI.C69_zero
#print axioms TB.KI.C69_one
#print axioms TB.KI.C69_metal
#print axioms TB.KI.C70_bands
#print axioms TB.KI.C70_grad
#print axioms TB.KI.C70_derivative
#print axioms TB.KI.C70_hess
#print axioms TB.Bulk.C71_scale
#print axioms TB.Bulk.C71_isotropic_mass
#print axioms TB.Bulk.C71_isotropic
#print axioms TB.Bulk.C71_tau
#print axioms TB.Bulk.C71_callable
#print axioms TB.Bulk.C71_three
#print axioms TB.Bulk.C71_units
#print axioms TB.BS.C72_python
#print axioms TB.BS.C73_derivatives
#print axioms TB.BS.C73_custom
#print axioms TB.BS.C73_ddf_missing
#print axioms TB.BS.C74_permute
#print axioms TB.BS.C74_scalar
#print axioms TB.BS.C74_transform
#print axioms TB.BS.C74_transform_defect
#print axioms TB.BS.C74_add
#print axioms TB.BS.C74_add_defect
#print axioms TB.BS.C75_normalize
#print axioms TB.BS.C75_symmetrizer
#print axioms TB.BS.C75_hermitian
#print axioms TB.BS.C76_supercell
#print axioms TB.Named.C77_cubic
#print axioms TB.Named.C77_perm3
#print axioms TB.Named.C77_even_perm3
#print axioms TB.Named.C77_mirror3
#print axioms TB.Named.C77_square
#print axioms TB.Named.C77_tetrahedral
#print axioms TB.Cyclic.C78_o2
#print axioms TB.Cyclic.C78_cyclic
#print axioms TB.Cyclic.C78_zero
#print axioms TB.Cyclic.C78_mirror
#print axioms TB.Cyclic.C78_none_inv
#print axioms TB.Cyclic.C78_o1
#print axioms TB.Cyclic.C78_dihedral_returns
#print axioms TB.Cyclic.C78_dihedral_error
#print axioms TB.Cyclic.C78_dihedral
#print axioms TB.UR.C79_from_generator
#print axioms TB.UR.C79_from_generator_returns_iff
#print axioms TB.UR.C79_from_generator_error
#print axioms TB.UR.C79_defect_duplicates
#print axioms TB.UR.C79_defect_identity
#print axioms TB.UR.C79_lengths
#print axioms TB.UR.C80_match_sym
#print axioms TB.UR.C80_short_defect
#print axioms TB.UR.C81_check_iff
#print axioms TB.UR.C81_defect
#print axioms TB.UR.C82_add
#print axioms TB.UR.C82_add_error
#print axioms TB.UR.C82_unitary
#print axioms TB.UR.C82_defect_complex
#print axioms TB.UR.C83_mul
#print axioms TB.UR.C83_mul_rep
#print axioms TB.UR.C84_permute
#print axioms TB.UR.C85_returns
#print axioms TB.UR.C85_covariant
#print axioms TB.UR.C85_fixed
#print axioms TB.UR.C85_orthogonal
#print axioms TB.UR.C85_no_inversion
#print axioms TB.UR.C85_defect_no_inversion
#print axioms TB.UR.C86_equal
#print axioms TB.UR.C86_returns
#print axioms TB.UR.C86_defect
#print axioms TB.UR.C86_errors
#print axioms TB.UR.C86_errors_no_inversion
#print axioms TB.UR.C87_invariant
#print axioms TB.UR.C87_fixed
#print axioms TB.UR.C87_orthogonal
#print axioms TB.UR.C88_points
#print axioms TB.UR.C88_inverse
#print axioms TB.UR.C88_default
#print axioms TB.UR.C88_defect_default
#print axioms TB.UR.C88_defect_inversion
#print axioms TB.UR.C89_check_symmetry
#print axioms TB.UR.C89_defect
#print axioms TB.UR.C90_o3
#print axioms TB.UR.C90_so3
#print axioms TB.UR.C90_o3ri
#print axioms TB.UR.C90_o3r
#print axioms TB.UR.C90_one_dim
#print axioms TB.UR.C90_d3
#print axioms TB.UR.C90_irreducible3
#print axioms TB.UR.C90_irreducible2
#print axioms TB.UR.C91_returns
#print axioms TB.UR.C91_result
#print axioms TB.UR.C91_not_transitive
#print axioms TB.HS.C92_returns
#print axioms TB.HS.C92_covariant
#print axioms TB.HS.C92_hermitian
#print axioms TB.HS.C92_inversion
#print axioms TB.HS.C92_same_place
#print axioms TB.HS.C92_fixed
#print axioms TB.HS.C92_idempotent
#print axioms TB.HS.C92_orthogonal
#print axioms TB.HS.C92_defect_inversion
#print axioms TB.HS.C93_symmetrizer
#print axioms TB.HS.C93_defect_duplicate
#print axioms TB.HS.C94_rotation
#print axioms TB.HS.C94_inversion
#print axioms TB.HS.C94_hermitian
#print axioms TB.HS.C94_defect_law
#print axioms TB.HS.C95_init
#print axioms TB.HS.C95_append
#print axioms TB.HS.C95_append_valid
#print axioms TB.HS.C95_append_s
#print axioms TB.HS.C95_append_p
#print axioms TB.HS.C95_append_d3
#print axioms TB.HS.C95_append_d2
#print axioms TB.HS.C95_append_d2_other
#print axioms TB.HS.C95_t2g
#print axioms TB.HS.C95_append_d3_even
#print axioms TB.HS.C95_defect_d3
#print axioms TB.HS.C95_swaps
#print axioms TB.HS.C95_diamond_s
#print axioms TB.HS.C95_diamond_p
#print axioms TB.HS.C95_diamond_d3
#print axioms TB.HS.C95_diamond_s_inversion
#print axioms TB.HS.C95_diamond_p_inversion
#print axioms TB.HS.C95_diamond_d3_inversion
#print axioms TB.HS.C95_defect_diamond_s
#print axioms TB.HS.C95_defect_diamond_p
#print axioms TB.HS.C95_defect_copy
#print axioms TB.HS.C96_apply
#print axioms TB.HS.C96_apply_same_place
#print axioms TB.HS.C96_points
#print axioms TB.HS.C96_nodup
#print axioms TB.HS.C96_values
#print axioms TB.HS.C96_defect_identity
#print axioms TB.HS.C96_defect_rows
#print axioms TB.HS.C96_defect_inversion
#print axioms TB.HS.C97_band_name
#print axioms TB.HS.C97_out_of_range
#print axioms TB.HS.C97_defect_negative
#print axioms TB.SC.C55_success_iff
#print axioms TB.SC.C55_bloch
#print axioms TB.SC.C55_hermitian
#print axioms TB.SC.C55_bands
#print axioms TB.SC.C55_multiple
#print axioms TB.SC.C55_defect_basis
#print axioms TB.SC.C55_defect_overlap
#print axioms TB.SC.C55_defect_lost
#print axioms TB.SC.C55_defect_cartesian
#print axioms TB.FE.C98_success_iff
#print axioms TB.FE.C98_parabola
#print axioms TB.FE.C98_limit
#print axioms TB.FE.C98_single
#print axioms TB.FE.C98_defect_anisotropic
#print axioms TB.Opt.C99_bs_result
#print axioms TB.Opt.C99_bs_kept
#print axioms TB.Opt.C99_bs_symmetric
#print axioms TB.Opt.C99_bs_restart
#print axioms TB.Opt.C99_descent
#print axioms TB.Opt.C99_linear
#print axioms TB.Opt.C99_minimizer
#print axioms TB.Opt.C99_result
#print axioms TB.Opt.C99_kept
#print axioms TB.Opt.C99_offset
#print axioms TB.Opt.C99_precond
#print axioms TB.Opt.C99_keep_zeros_defect
#print axioms TB.Opt.C99_bs_hamiltonian
#print axioms TB.Opt.C99_bs_errors
#print axioms TB.Opt.C99_keep_zeros_dense
#print axioms TB.Opt.C99_bs_keep_zeros_dense
#print axioms TB.Opt.C100_train_k0
#print axioms TB.Opt.C100_keep_zeros
#print axioms TB.Opt.C100_descent
#print axioms TB.Opt.C100_exact
#print axioms TB.Opt.C100_fit
#print axioms TB.Opt.C100_kept
#print axioms TB.Opt.C100_result
#print axioms TB.Opt.C100_train_k0_f
#print axioms TB.Opt.C100_errors
#print axioms TB.Opt.C100_train_k0_defect
#print axioms TB.Opt.C100_keep_zeros_defect
#print axioms TB.Opt.C101_descent
#print axioms TB.Opt.C101_fit
#print axioms TB.Opt.C101_kept
#print axioms TB.Opt.C101_result
#print axioms TB.Opt.C101_errors
#print axioms TB.Opt.C101_train_S_defect
#print axioms TB.Opt.C101_keep_zeros_defect
#print axioms TB.Opt.C101_batch_overlap_defect
#print axioms TB.C102_space_group
#print axioms TB.C102_point_group
#print axioms TB.C102_centred_defect
#print axioms TB.C102_ignore_translation
#print axioms TB.C102_strict_point_group
#print axioms TB.C102_inversion_defect
#print axioms TB.C102_transform
#print axioms TB.C102_dual
#print axioms TB.C102_flag_lost
#print axioms TB.C102_translation_defect
#print axioms TB.C102_inversion_flag_defect
#print axioms TB.C103_no_symmetry_defect
#print axioms TB.C103_returns_iff
#print axioms TB.C103_k_points
#print axioms TB.C103_symmetries
#print axioms TB.C103_point_group
#print axioms TB.KPts.C104_cubic
#print axioms TB.KPts.C104_square_line
#print axioms TB.KPts.C104_hexagonal
#print axioms TB.KPts.C104_hexagonal_defect
#print axioms TB.KPts.C104_tetragonal
#print axioms TB.KPts.C104_tetragonal_state_defect
#print axioms TB.KPts.C104_tetragonal_cubic_defect
#print axioms TB.KPts.C104_trigonal
#print axioms TB.KPts.C104_trigonal_error
#print axioms TB.C105_constructor
#print axioms TB.C105_value
#print axioms TB.C105_derivatives
#print axioms TB.C105_fourier
#print axioms TB.C105_set_from_complex
#print axioms TB.C105_params_complex
#print axioms TB.C105_set_length
#print axioms TB.C105_bands_grad_hess
#print axioms TB.C105_errors
#print axioms TB.Opt.C106_result
#print axioms TB.Opt.C106_weights_defect
#print axioms TB.Opt.C106_kept
#print axioms TB.Opt.C106_one_point
#print axioms TB.Opt.C106_descent
#print axioms TB.Opt.C106_loss_defect
#print axioms TB.Dos.C107_samples
#print axioms TB.Dos.C107_errors
#print axioms TB.Dos.C107_sorted
#print axioms TB.Dos.C107_high
#print axioms TB.Dos.C107_low
#print axioms TB.Dos.C107_stale_defect
#print axioms TB.Dos.C107_stale_wrong
#print axioms TB.Dos.C107_unsorted
#print axioms TB.Dos.C107_full
#print axioms TB.Dos.C108_seebeck
#print axioms TB.Dos.C108_seebeck_errors
#print axioms TB.Dos.C108_heat_capacity
#print axioms TB.Dos.C108_heat_zero
#print axioms TB.Dos.C108_zero_step
#print axioms TB.Dos.C109_zero
#print axioms TB.Dos.C109_warm
#print axioms TB.Dos.C109_empty
#print axioms TB.Dos.C109_cell_zero
#print axioms TB.Dos.C109_cell_warm
#print axioms TB.Dos.C109_cell_negative
#print axioms TB.Dos.C110_energy
#print axioms TB.Dos.C110_origin
#print axioms TB.Dos.C110_edges
#print axioms TB.Dos.C110_errors
#print axioms TB.C111_average
#print axioms TB.C111_consistent
#print axioms TB.C111_symmetric
#print axioms TB.C111_errors
#print axioms TB.C112_grid
#print axioms TB.C112_periodic
#print axioms TB.C112_range_defect
#print axioms TB.C112_symmetric
#print axioms TB.C112_errors
#print axioms TB.C112_key
#print axioms TB.C112_not_grid_defect
#print axioms TB.C113_nearest
#print axioms TB.C113_samples
#print axioms TB.C113_symmetric
#print axioms TB.C113_length_defect
#print axioms TB.Files.C114_asym_save_format
#print axioms TB.Files.C114_load_format
#print axioms TB.Files.C114_save_only
#print axioms TB.Files.C114_asym_save_failure
#print axioms TB.Files.C114_asym_json
#print axioms TB.Files.C114_overlap_lost
#print axioms TB.Files.C114_bs_save_format
#print axioms TB.Files.C114_bs_json
#print axioms TB.Files.C114_bs_no_matrices
#print axioms TB.Files.C114_bs_json_symmetry
#print axioms TB.Files.C114_python
#print axioms TB.Files.C114_wannier
#print axioms TB.InitRef.C115_asym_errors
#print axioms TB.InitRef.C115_asym_values
#print axioms TB.InitRef.C115_asym_bound
#print axioms TB.InitRef.C115_asym_trace
#print axioms TB.InitRef.C115_asym_flat
#print axioms TB.InitRef.C115_bs_values
#print axioms TB.InitRef.C115_bs_errors
#print axioms TB.InitRef.C115_bs_exact
#print axioms TB.InitRef.C115_bs_trace
#print axioms TB.Autofit.C116_only_files
#print axioms TB.Autofit.C116_checkpoints
#print axioms TB.Autofit.C116_duplicate
#print axioms TB.Autofit.C116_best
#print axioms TB.Autofit.C116_samples
#print axioms TB.Autofit.C116_assertions
#print axioms TB.Autofit.C116_start_matrix
#print axioms TB.Autofit.C116_added_bands
#print axioms TB.Autofit.C116_exact_fit
#print axioms TB.Autofit.C116_protocol
#print axioms TB.Autofit.C116_returns
#print axioms TB.Phonon.C117_formula
#print axioms TB.Phonon.C117_index
#print axioms TB.Phonon.C117_same
#print axioms TB.Phonon.C117_exchange
#print axioms TB.Phonon.C117_bound
#print axioms TB.Phonon.C117_phases
#print axioms TB.Phonon.C117_velocity
#print axioms TB.Phonon.C117_degenerate
#print axioms TB.FermiSamples.C118_errors
#print axioms TB.FermiSamples.C118_bands
#print axioms TB.FermiSamples.C118_area
#print axioms TB.FermiSamples.C118_band_sum
#print axioms TB.FermiSamples.C118_newton
#print axioms TB.FermiSamples.C118_newton_samples
#print axioms TB.FermiSamples.C118_energy_forgotten
#print axioms TB.FermiSamples.C118_gradient_sum
#print axioms TB.FermiSamples.C118_gradient_band_sum
#print axioms TB.FermiSamples.C118_det
#print axioms TB.FermiSamples.C118_scale
#print axioms TB.FermiSamples.C118_plane_area
#print axioms TB.FermiSamples.C118_cube_gradient
#print axioms TB.FermiSamples.C118_coarea
#print axioms TB.FermiSamples.C118_left_out
#print axioms TB.Naive.C119_fermi_count
#print axioms TB.Naive.C119_fermi_negative
#print axioms TB.Naive.C119_fermi_gap
#print axioms TB.Naive.C119_fermi_full
#print axioms TB.Naive.C119_fermi_shift
#print axioms TB.Naive.C119_energy
#print axioms TB.Naive.C119_energy_empty
#print axioms TB.Naive.C119_energy_limit
#print axioms TB.Gauss.C120_gauss_5_df
#print axioms TB.Gauss.C120_gauss_7_df
#print axioms TB.Gauss.C120_gauss_4_f
#print axioms TB.Gauss.C120_gauss_6_f
#print axioms TB.Gauss.C120_monotone
#print axioms TB.Gauss.C120_degree
#print axioms TB.Bulk.C121_cubic_formula
#print axioms TB.Bulk.C121_sign
#print axioms TB.Bulk.C121_isotropic_mass
#print axioms TB.Bulk.C121_old
#print axioms TB.Bulk.C121_rotation
#print axioms TB.Bulk.C121_errors
#print axioms TB.Bulk.C121_heat
#print axioms TB.PropsDosInit.C122_grid
#print axioms TB.PropsDosInit.C122_bands
#print axioms TB.PropsDosInit.C122_inversion
#print axioms TB.PropsDosInit.C122_wrap
#print axioms TB.PropsDosInit.C122_arguments
#print axioms TB.PropsDosInit.C122_options
#print axioms TB.PropsDosInit.C122_kind
#print axioms TB.PropsDosInit.C122_check
#print axioms TB.PropsDosInit.C122_range_plain
#print axioms TB.PropsDosInit.C122_range_newton
#print axioms TB.PropsDosInit.C122_parabola
#print axioms TB.PropsDosInit.C122_range_misses
#print axioms TB.PropsDosInit.C122_units
#print axioms TB.PropsLipschitz.C123_overlap
#print axioms TB.PropsLipschitz.C123_orthogonal
#print axioms TB.PropsLipschitz.C123_range
#print axioms TB.PropsMergeAxes.C124_merge
#print axioms TB.PropsMergeAxes.C124_errors
#print axioms TB.PropsMergeAxes.C124_default
#print axioms TB.PropsMergeAxes.C124_compose
#print axioms TB.PropsGeigh.C125_geigh
#print axioms TB.PropsGeigh.C125_geigvalsh
#print axioms TB.PropsGeigh.C125_not_posdef
#print axioms TB.PropsGeigh.C125_lengths
#print axioms TB.PropsGeigh.C125_single
#print axioms TB.PropsTbmInit.C126_gamma
#print axioms TB.PropsTbmInit.C126_no_symmetry
#print axioms TB.PropsTbmInit.C126_returns
#print axioms TB.PropsTbmInit.C126_arguments
#print axioms TB.PropsTbmInit.C126_trivial
#print axioms TB.PropsTbmInit.C126_exact
#print axioms TB.PropsIco.C127_icosahedral
#print axioms TB.PropsIco.C127_defect_axis
#print axioms TB.PropsCheckSym.C128_check_symmetry
#print axioms TB.PropsCheckSym.C128_check_bound
#print axioms TB.PropsCheckSym.C128_defect_inversion
#print axioms TB.PropsCheckSym.C128_check_neighbors
#print axioms TB.PropsQeBin.C129_read_wavefunctions
#print axioms TB.PropsQeBin.C129_order
#print axioms TB.PropsQeBin.C129_no_files
#print axioms TB.PropsQeBin.C129_other_lattice
#print axioms TB.PropsQeBin.C129_missing_files
#print axioms TB.PropsQeBin.C129_defect_polarisation
#print axioms TB.PropsQeBin.C129_truncated
#print axioms TB.PropsQeBin.C130_defect_shift
#print axioms TB.PropsQeBin.C130_defect_real_parts
#print axioms TB.PropsQeBin.C130_truncated
#print axioms TB.PropsFromDisk.C131_from_disk
#print axioms TB.PropsFromDisk.C131_errors
#print axioms TB.PropsFromDisk.C131_defect_units
#print axioms TB.PropsCards.C132_k_points
#print axioms TB.PropsCards.C132_kpath_str
#print axioms TB.PropsCards.C132_k_grid
#print axioms TB.PropsCards.C132_k_points_wannier
#print axioms TB.PropsCards.C132_k_path_wannier
#print axioms TB.PropsCards.C132_crystal
#print axioms TB.PropsCards.C132_crystal_errors
#print axioms TB.PropsCards.C132_crystal_wannier
#print axioms TB.PropsKCache.C133_history_free
#print axioms TB.PropsKCache.C133_defect_order
#print axioms TB.PropsKCache.C133_evaluations
#print axioms TB.PropsQeRead.C134_one_atom
#print axioms TB.PropsQeRead.C134_defect_many_atoms
#print axioms TB.PropsQeRead.C134_other_index
#print axioms TB.PropsQeRead.C135_read_projections
#print axioms TB.PropsQeRead.C135_too_many
#print axioms TB.PropsQeRead.C135_wrong_length
#print axioms TB.PropsQeRead.C136_read_bandx_raw
#print axioms TB.PropsQeRead.C136_errors
#print axioms TB.PropsQeRead.C137_valence
#print axioms TB.PropsQeRead.C137_valence_errors
#print axioms TB.PropsQeRead.C137_cutoff
#print axioms TB.PropsExtraCubes.C138_constructor
#print axioms TB.PropsExtraCubes.C138_affine
#print axioms TB.PropsExtraCubes.C138_mean
#print axioms TB.PropsExtraCubes.C138_derivative
#print axioms TB.PropsExtraCubes.C138_limits
#print axioms TB.PropsExtraCubes.C138_defect_negative
#print axioms TB.PropsElements.C139_tables
#print axioms TB.PropsElements.C139_mass
#print axioms TB.PropsElements.C139_laws
#print axioms TB.PropsElements.C139_defect_electrons
#print axioms TB.PropsQePrepare.C140_dictionary
#print axioms TB.PropsQePrepare.C140_nothing_missing
#print axioms TB.PropsQePrepare.C140_commands
#print axioms TB.PropsQePrepare.C140_defect_injection
#print axioms TB.PropsObjExport.C141_meshes
#print axioms TB.PropsObjExport.C141_exceptions
#print axioms TB.PropsObjExport.C141_defect_materials
#print axioms TB.PropsObjExport.C141_defect_units
#print axioms TB.PropsWannierGrid.C142_inferred
#print axioms TB.PropsWannierGrid.C142_grid
#print axioms TB.PropsWannierGrid.C142_consistent
#print axioms TB.PropsWannierGrid.C142_plot
#print axioms TB.PropsWannierGrid.C142_defect_order
#print axioms TB.PropsWannierGrid.C142_errors
#print axioms TB.PropsQeShow.C143_orbitals
#print axioms TB.PropsQeShow.C143_orbitals_error
#print axioms TB.PropsQeShow.C143_orbitals_count
#print axioms TB.PropsQeShow.C143_pieces
#print axioms TB.PropsKPlot.C144_label
#print axioms TB.PropsKPlot.C144_labels
#print axioms TB.PropsKPlot.C144_offset
#print axioms TB.PropsKPlot.C144_colours
#print axioms TB.PropsKPlot.C144_block
#print axioms TB.PropsKPlot.C144_defect_degenerate
#print axioms TB.PropsFermiPlot.C145_samples
#print axioms TB.PropsFermiPlot.C145_bands
#print axioms TB.PropsFermiPlot.C145_defect_places
#print axioms TB.PropsFermiPlot.C145_contours
#print axioms TB.PropsFermiPlot.C145_planes
#print axioms TB.PropsFermiPlot.C145_accelerated
#print axioms TB.PropsFermiPlot.C145_defect_degenerate
#print axioms TB.PropsTetraAll.C146_accuracy
#print axioms TB.PropsTetraAll.C146_exact
#print axioms TB.PropsTetraAll.C146_derivative
#print axioms TB.PropsTetraAll.C146_flat
#print axioms TB.PropsTetraAll.C146_cell
#print axioms TB.PropsTetraAll.C146_distribution
#print axioms TB.PropsTetraAll.C146_cell_derivative
#print axioms TB.PropsTetraAll.C146_grid
#print axioms TB.PropsCubeAll.C147_accuracy
#print axioms TB.PropsCubeAll.C147_flat
#print axioms TB.PropsCubeAll.C147_cell
#print axioms TB.PropsCubeAll.C147_agree
#print axioms TB.PropsCubeAll.C147_grid
#print axioms TB.PropsQeInput.C148_scf
#print axioms TB.PropsQeInput.C148_relax
#print axioms TB.PropsQeInput.C148_bands
#print axioms TB.PropsQeInput.C148_nscf
#print axioms TB.PropsQeInput.C148_nscf_nosym
#print axioms TB.PropsQeInput.C148_counts
#print axioms TB.PropsQeInput.C148_failing
#print axioms TB.PropsQeInput.C148_degauss
#print axioms TB.PropsQeInput.C148_bandx
#print axioms TB.PropsQeInput.C148_dos
#print axioms TB.PropsQeInput.C148_projections
#print axioms TB.PropsQeInput.C148_overlaps
#print axioms TB.PropsQeInput.C148_fermi_surface
#print axioms TB.PropsQeInput.C148_dielectric
#print axioms TB.PropsQeInput.C148_wannier
#print axioms TB.PropsQeInput.C148_absolute
#print axioms TB.PropsQeOutput.C149_bandx
#print axioms TB.PropsQeOutput.C149_bandx_missing
#print axioms TB.PropsQeOutput.C149_dos
#print axioms TB.PropsQeOutput.C149_dos_hidden
#print axioms TB.PropsQeOutput.C149_dos_without
#print axioms TB.PropsQeOutput.C149_dos_one
#print axioms TB.PropsQeOutput.C149_dos_two_blanks
#print axioms TB.PropsQeOutput.C149_dielectric
#print axioms TB.PropsQeOutput.C149_dielectric_lengths
#print axioms TB.PropsQeOutput.C149_dielectric_one
#print axioms TB.PropsQeOutput.C149_version
#print axioms TB.PropsQeOutput.C149_version_missing
#print axioms TB.PropsRandomize.C150_asym
#print axioms TB.PropsRandomize.C150_bs
#print axioms TB.PropsRandomize.C150_hermitian
#print axioms TB.PropsRandomize.C150_normalized
#print axioms TB.PropsRandomize.C150_distance
#print axioms TB.PropsRandomize.C150_print
#print axioms TB.PropsRandomize.C150_print_scale
#print axioms TB.PropsRandomize.C150_print_single
#print axioms TB.PropsRandomize.C150_norms
#print axioms TB.PropsRandomize.C150_norms_hidden
#print axioms TB.PropsCubeSamples.C151_inside
#print axioms TB.PropsCubeSamples.C151_cell
#print axioms TB.PropsCubeSamples.C151_affine
#print axioms TB.PropsCubeSamples.C151_affine_grads
#print axioms TB.PropsCubeSamples.C151_extra
#print axioms TB.PropsCubeSamples.C151_count
#print axioms TB.PropsCubeSamples.C151_density
#print axioms TB.PropsCubeSamples.C151_make
#print axioms TB.PropsShare.C152_family
#print axioms TB.PropsShare.C152_isolated
#print axioms TB.PropsShare.C152_frame
#print axioms TB.PropsShare.C152_transform
#print axioms TB.PropsShare.C152_linked
#print axioms TB.PropsShare.C152_defect

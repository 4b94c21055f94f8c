import Verif.Props.Absorb
import Verif.Props.AbsorbTwisted
import Verif.Props.Amplitudes
import Verif.Props.Beams
import Verif.Props.Builder
import Verif.Props.Cascade
import Verif.Props.Convolution
import Verif.Props.Crystal
import Verif.Props.Draw
import Verif.Props.Eigentricks
import Verif.Props.Embed
import Verif.Props.Expansion
import Verif.Props.Extension
import Verif.Props.Ez
import Verif.Props.EzSpectrum
import Verif.Props.Factory
import Verif.Props.Fields
import Verif.Props.Helpers
import Verif.Props.History
import Verif.Props.Islands
import Verif.Props.Laid
import Verif.Props.Layer
import Verif.Props.Layout
import Verif.Props.Locate
import Verif.Props.Mirror
import Verif.Props.Mix
import Verif.Props.Multilayer
import Verif.Props.Parallel
import Verif.Props.Paraxial
import Verif.Props.Passive
import Verif.Props.Polarisation
import Verif.Props.Recipes
import Verif.Props.Reciprocity
import Verif.Props.Shortcuts
import Verif.Props.Status
import Verif.Props.Symmetry
import Verif.Props.Tmat
import Verif.Props.TmatFresnel
import Verif.Props.TmatLossyDevice
import Verif.Props.TmatPassive
import Verif.Props.TmatPhysics
import Verif.Props.TmatProject
import Verif.Props.TmatReciprocity
import Verif.Props.TmatStack
import Verif.Props.TmatSymmetry
import Verif.Props.TmatTurned
import Verif.Props.Transforms
import Verif.Props.Twisted
import Verif.Props.TwistedFields
import Verif.Props.TwistedQuery
import Verif.Props.TwistedReciprocity
import Verif.Props.TwistedSymmetry
import Verif.Props.Volume
import Verif.Props.Windows
import Verif.Props.Zone

/-! The axioms every property theorem depends on (printed when this file is compiled). -/

#print axioms Khepri.C01_cascade_exact
#print axioms Khepri.C02_cascade_fails_iff_resonance
#print axioms Khepri.C02_both_systems_singular_together
#print axioms Khepri.C03_cascade_assoc
#print axioms Khepri.C03_cascade_assoc_ok
#print axioms Khepri.C03_inner_cascade_needed
#print axioms Khepri.C04_identity_neutral
#print axioms Khepri.C04_identity_transparent
#print axioms Khepri.C05_stack_layers
#print axioms Khepri.C05_only_linAlg
#print axioms Khepri.C06_interior_amplitudes
#print axioms Khepri.C06_stack_interior
#print axioms Khepri.C07_layer_bvp
#print axioms Khepri.C08_zero_thickness
#print axioms Khepri.C08_zero_thickness_ok_iff
#print axioms Khepri.C08_insert
#print axioms Khepri.C09_two_slices
#print axioms Khepri.C09_slices
#print axioms Khepri.C10_any_basis_any_roots
#print axioms Khepri.C10_structured_layer
#print axioms Khepri.C11_reflection
#print axioms Khepri.C11_transmission
#print axioms Khepri.C12_crystal
#print axioms Khepri.C12_crystal_unique
#print axioms Khepri.C12_device
#print axioms Khepri.C12_gap_independent
#print axioms Khepri.C12_device_maxwell
#print axioms Khepri.C13_mirror
#print axioms Khepri.C13_mirror_symmetric_layers
#print axioms Khepri.C13_layers_symmetric
#print axioms Khepri.C14_lossless_stack
#print axioms Khepri.C14_passive_stack
#print axioms Khepri.C15_energy_conserved
#print axioms Khepri.C15_energy_absorbed
#print axioms Khepri.C15_angles_real
#print axioms Khepri.C16_nonneg
#print axioms Khepri.C16_total
#print axioms Khepri.C16_scale
#print axioms Khepri.C17_only_specular
#print axioms Khepri.C17_unit_transverse_partial
#print axioms Khepri.C17_te_tm_orthogonal
#print axioms Khepri.C17_returns
#print axioms Khepri.C17_cutoff_bound
#print axioms Khepri.C17_cutoff_counterexample
#print axioms Khepri.C18_uniform_modes
#print axioms Khepri.C18_free_space
#print axioms Khepri.C18_uniform_eq_structured
#print axioms Khepri.C18_uniform_ok_iff
#print axioms Khepri.C19_uniform_forward_decay
#print axioms Khepri.C19_structured_forward_decay
#print axioms Khepri.C19_half_space
#print axioms Khepri.C20_own_modes_iff_real
#print axioms Khepri.C20_real_permittivity_partial
#print axioms Khepri.C20_counterexample
#print axioms Khepri.C21_orders
#print axioms Khepri.C21_even_raises
#print axioms Khepri.C22_duality
#print axioms Khepri.C22_returns_iff
#print axioms Khepri.C22_gvectors
#print axioms Khepri.C22_rotate
#print axioms Khepri.C23_entries
#print axioms Khepri.C23_entries_any
#print axioms Khepri.C23_too_small_raises
#print axioms Khepri.C24_hermitian
#print axioms Khepri.C24_constant
#print axioms Khepri.C24_lower_bound
#print axioms Khepri.C24_invertible
#print axioms Khepri.C25_minkowski
#print axioms Khepri.C25_accepts_iff
#print axioms Khepri.C25_specular_middle
#print axioms Khepri.C26_joint_subspace
#print axioms Khepri.C26_extend_lhs
#print axioms Khepri.C26_extend_rhs
#print axioms Khepri.C26_numbering
#print axioms Khepri.C26_foreign
#print axioms Khepri.C27_cascade
#print axioms Khepri.C27_identity
#print axioms Khepri.C27_stack
#print axioms Khepri.C28_freespace
#print axioms Khepri.C28_uniform
#print axioms Khepri.C29_order
#print axioms Khepri.C29_history
#print axioms Khepri.C30_stale_counterexample
#print axioms Khepri.C30_unsolved_partial
#print axioms Khepri.C30_fresh_partial
#print axioms Khepri.C31_kept_partial
#print axioms Khepri.C31_refused_partial
#print axioms Khepri.C31_matrices_partial
#print axioms Khepri.C31_query_partial
#print axioms Khepri.C31_void_counterexample
#print axioms Khepri.C31_twisted_partial
#print axioms Khepri.C32_locate
#print axioms Khepri.C33_thickness_partial
#print axioms Khepri.C33_void_counterexample
#print axioms Khepri.C34_fields_partial
#print axioms Khepri.C34_emergence_partial
#print axioms Khepri.C34_continuous
#print axioms Khepri.C34_emergence_counterexample
#print axioms Khepri.C35_linear
#print axioms Khepri.C35_real
#print axioms Khepri.C35_same_errors
#print axioms Khepri.C36_bloch
#print axioms Khepri.C36_lattice
#print axioms Khepri.C36_rotate
#print axioms Khepri.C37_quarter_partial
#print axioms Khepri.C37_counterexample
#print axioms Khepri.C38_painter
#print axioms Khepri.C38_painter_unique
#print axioms Khepri.C38_accepts
#print axioms Khepri.C38_refuses
#print axioms Khepri.C38_copy
#print axioms Khepri.C38_islands_live
#print axioms Khepri.C39_grating_partial
#print axioms Khepri.C39_refuses
#print axioms Khepri.C39_missing
#print axioms Khepri.C39_uniform_counterexample
#print axioms Khepri.C39_lattice_counterexample
#print axioms Khepri.C40_islands_partial
#print axioms Khepri.C40_overlap_counterexample
#print axioms Khepri.C40_parallelogram_counterexample
#print axioms Khepri.C40_ellipse_counterexample
#print axioms Khepri.C41_first_partial
#print axioms Khepri.C41_second_partial
#print axioms Khepri.C41_transposed
#print axioms Khepri.C41_exists
#print axioms Khepri.C41_counterexample
#print axioms Khepri.C42_rectangle
#print axioms Khepri.C42_exact
#print axioms Khepri.C42_zero
#print axioms Khepri.C42_conj
#print axioms Khepri.C43_same
#print axioms Khepri.C43_exists
#print axioms Khepri.C43_unique
#print axioms Khepri.C43_compose
#print axioms Khepri.C43_chain
#print axioms Khepri.C43_assoc
#print axioms Khepri.C44_inverse
#print axioms Khepri.C44_exists
#print axioms Khepri.C44_negative_float
#print axioms Khepri.C44_matched
#print axioms Khepri.C44_neutral
#print axioms Khepri.C45_slicing
#print axioms Khepri.C45_whole
#print axioms Khepri.C45_depths
#print axioms Khepri.C46_places
#print axioms Khepri.C46_injective
#print axioms Khepri.C46_incident
#print axioms Khepri.C46_incident_exists
#print axioms Khepri.C46_reads
#print axioms Khepri.C47_partial
#print axioms Khepri.C47_counterexample
#print axioms Khepri.C48_same
#print axioms Khepri.C49_square
#print axioms Khepri.C49_branch
#print axioms Khepri.C49_unique
#print axioms Khepri.C50_partial
#print axioms Khepri.C50_scale_partial
#print axioms Khepri.C50_counterexample
#print axioms Khepri.C51_counterexample
#print axioms Khepri.C51_partial
#print axioms Khepri.C52_bloch
#print axioms Khepri.C52_transfer
#print axioms Khepri.C52_det
#print axioms Khepri.C52_origin
#print axioms Khepri.C52_supercell
#print axioms Khepri.C52_lossless
#print axioms Khepri.C53_gather
#print axioms Khepri.C53_stack
#print axioms Khepri.C53_grouping
#print axioms Khepri.C53_total
#print axioms Khepri.C53_device
#print axioms Khepri.C53_drawing
#print axioms Khepri.C53_drawn
#print axioms Khepri.C53_zero_repeat
#print axioms Khepri.C53_lattice
#print axioms Khepri.C54_dense
#print axioms Khepri.C54_dense_split
#print axioms Khepri.C54_split_dense
#print axioms Khepri.C54_refuses
#print axioms Khepri.C55_grid
#print axioms Khepri.C55_inside
#print axioms Khepri.C55_distinct
#print axioms Khepri.C55_quadrature
#print axioms Khepri.C55_path
#print axioms Khepri.C55_path_defined
#print axioms Khepri.C56_rotation
#print axioms Khepri.C56_fields
#print axioms Khepri.C56_frame
#print axioms Khepri.C56_rigid
#print axioms Khepri.C56_plane_wave
#print axioms Khepri.C57_dft
#print axioms Khepri.C57_dft_finishes
#print axioms Khepri.C57_slow_dft
#print axioms Khepri.C57_roundtrip
#print axioms Khepri.C58_fourier_partial
#print axioms Khepri.C58_mirrored_partial
#print axioms Khepri.C58_counterexample
#print axioms Khepri.C59_disc
#print axioms Khepri.C59_zero
#print axioms Khepri.C60_si
#print axioms Khepri.C60_modes
#print axioms Khepri.C60_layer
#print axioms Khepri.C60_interface
#print axioms Khepri.C60_stack
#print axioms Khepri.C60_uniform
#print axioms Khepri.C61_layer
#print axioms Khepri.C61_interface
#print axioms Khepri.C61_cascade
#print axioms Khepri.C61_device
#print axioms Khepri.C61_fluxes
#print axioms Khepri.C61_exists
#print axioms Khepri.C62_angles
#print axioms Khepri.C62_opposite
#print axioms Khepri.C62_set_source
#print axioms Khepri.C63_kind
#print axioms Khepri.C63_same
#print axioms Khepri.C64_partial
#print axioms Khepri.C64_counterexample
#print axioms Khepri.C65_partial
#print axioms Khepri.C65_counterexample
#print axioms Khepri.C66_partial
#print axioms Khepri.C66_defined
#print axioms Khepri.C66_counterexample
#print axioms Khepri.C67_shapes_partial
#print axioms Khepri.C67_disc_partial
#print axioms Khepri.C67_rectangle_partial
#print axioms Khepri.C67_counterexample
#print axioms Khepri.C68_gaussian
#print axioms Khepri.C68_vacuum_partial
#print axioms Khepri.C68_medium
#print axioms Khepri.C68_impedance
#print axioms Khepri.C68_vortex
#print axioms Khepri.C68_power
#print axioms Khepri.C68_waist
#print axioms Khepri.C69_volume
#print axioms Khepri.C69_volume_defined
#print axioms Khepri.C69_power_partial
#print axioms Khepri.C69_counterexample
#print axioms Khepri.C70_coefficients
#print axioms Khepri.C70_fluxes
#print axioms Khepri.C70_interface
#print axioms Khepri.C71_accepts_name
#print axioms Khepri.C71_counterexample
#print axioms Khepri.C71_square
#print axioms Khepri.C71_hexagonal
#print axioms Khepri.C71_layers
#print axioms Khepri.C71_add_accepts
#print axioms Khepri.C71_device
#print axioms Khepri.C71_unknown
#print axioms Khepri.C71_multilayer
#print axioms Khepri.C71_from_expansion
#print axioms Khepri.C71_status
#print axioms Khepri.C72_source
#print axioms Khepri.C72_scattering
#print axioms Khepri.C72_fluxes
#print axioms Khepri.C73_scattering
#print axioms Khepri.C73_fluxes
#print axioms Khepri.C73_normal
#print axioms Khepri.C73_angle
#print axioms Khepri.C74_scattering
#print axioms Khepri.C74_fluxes
#print axioms Khepri.C74_moved
#print axioms Khepri.C75_orders
#print axioms Khepri.C75_lorentz
#print axioms Khepri.C75_flipped
#print axioms Khepri.C75_reflectance
#print axioms Khepri.C75_transmittance
#print axioms Khepri.C76_uniform
#print axioms Khepri.C76_structured
#print axioms Khepri.C76_assembled
#print axioms Khepri.C76_vacuum
#print axioms Khepri.C77_accepts
#print axioms Khepri.C77_lossy_counterexample
#print axioms Khepri.C77_layers
#print axioms Khepri.C77_depth
#print axioms Khepri.C77_periodic
#print axioms Khepri.C77_half_period_partial
#print axioms Khepri.C77_half_period_counterexample
#print axioms Khepri.C78_bloch_partial
#print axioms Khepri.C78_in_range
#print axioms Khepri.C78_counterexample
#print axioms Khepri.C78_memory
#print axioms Khepri.C78_memory_counterexample
#print axioms Khepri.C79_convolution
#print axioms Khepri.C79_accepts
#print axioms Khepri.C79_layout
#print axioms Khepri.C79_stride_counterexample
#print axioms Khepri.C79_quiver_partial
#print axioms Khepri.C79_quiver_counterexample
#print axioms Khepri.C79_positions
#print axioms Khepri.C79_coords
#print axioms Khepri.C80_fft_partial
#print axioms Khepri.C80_fft_scaled
#print axioms Khepri.C80_fft_scale_counterexample
#print axioms Khepri.C80_fft_bloch_counterexample
#print axioms Khepri.C80_fft_parity
#print axioms Khepri.C80_fft_square
#print axioms Khepri.C80_direct_partial
#print axioms Khepri.C80_direct_transposed
#print axioms Khepri.C80_direct_counterexample
#print axioms Khepri.C81_tmat_s
#print axioms Khepri.C81_tmat_p
#print axioms Khepri.C81_tmat_normal
#print axioms Khepri.C81_crystal_partial
#print axioms Khepri.C81_crystal_counterexample
#print axioms Khepri.C81_agree_partial
#print axioms Khepri.C81_agree_counterexample
#print axioms Khepri.C82_vectors
#print axioms Khepri.C82_grid
#print axioms Khepri.C82_differences
#print axioms Khepri.C82_angle
#print axioms Khepri.C82_mask
#print axioms Khepri.C82_mask_counterexample
#print axioms Khepri.C82_set_gx
#print axioms Khepri.C82_set_gy
#print axioms Khepri.C82_eta_partial
#print axioms Khepri.C82_eta_counterexample
#print axioms Khepri.C82_units
#print axioms Khepri.C82_energy
#print axioms Khepri.C83_rows
#print axioms Khepri.C83_scale
#print axioms Khepri.C83_fields_partial
#print axioms Khepri.C83_normal_partial
#print axioms Khepri.C83_oblique_counterexample
#print axioms Khepri.C84_interface
#print axioms Khepri.C84_normal
#print axioms Khepri.C85_maxwell
#print axioms Khepri.C85_unique
#print axioms Khepri.C85_energy
#print axioms Khepri.C85_absorbed
#print axioms Khepri.C85_registered
#print axioms Khepri.C86_transverse_partial
#print axioms Khepri.C86_longitudinal_partial
#print axioms Khepri.C86_ez_counterexample
#print axioms Khepri.C87_first
#print axioms Khepri.C87_second
#print axioms Khepri.C88_lines
#print axioms Khepri.C89_turned
#print axioms Khepri.C89_exchanged
#print axioms Khepri.C89_half_turn
#print axioms Khepri.C89_mirror
#print axioms Khepri.C89_symmetric
#print axioms Khepri.C90_unpolarised
#print axioms Khepri.C90_mirror
#print axioms Khepri.C90_rectangular
#print axioms Khepri.C90_exchange
#print axioms Khepri.C90_grating
#print axioms Khepri.C91_coefficients
#print axioms Khepri.C91_apart
#print axioms Khepri.C91_fluxes
#print axioms Khepri.C91_agree_partial
#print axioms Khepri.C91_counterexample
#print axioms Khepri.C92_pixmap_partial
#print axioms Khepri.C92_counterexample
#print axioms Khepri.C92_exact
#print axioms Khepri.C93_displaced
#print axioms Khepri.C93_swapped
#print axioms Khepri.C93_rotated
#print axioms Khepri.C93_turned
#print axioms Khepri.C93_scaled
#print axioms Khepri.C94_half_spaces
#print axioms Khepri.C94_layer
#print axioms Khepri.C94_device
#print axioms Khepri.C94_powers
#print axioms Khepri.C94_power_lost
#print axioms Khepri.C95_device
#print axioms Khepri.C95_powers
#print axioms Khepri.C95_power_lost
#print axioms Khepri.C96_uniform_layer_partial
#print axioms Khepri.C96_device_partial
#print axioms Khepri.C96_uniform_stack_partial
#print axioms Khepri.C96_counterexample
#print axioms Khepri.C97_range_partial
#print axioms Khepri.C97_absorbing_partial
#print axioms Khepri.C97_strictly_absorbing_partial
#print axioms Khepri.C97_invertible_partial
#print axioms Khepri.C97_energy_partial
#print axioms Khepri.C97_overlap
#print axioms Khepri.C97_counterexample
#print axioms Khepri.C98_lorentz
#print axioms Khepri.C98_flipped
#print axioms Khepri.C98_reflectance
#print axioms Khepri.C98_transmittance
#print axioms Khepri.C99_layer
#print axioms Khepri.C99_discs
#print axioms Khepri.C99_through
#print axioms Khepri.C99_lossy
#print axioms Khepri.C99_exists
#print axioms Khepri.C99_cascade
#print axioms Khepri.C99_device
#print axioms Khepri.C99_interface
#print axioms Khepri.C99_fluxes
#print axioms Khepri.C99_thin
#print axioms Khepri.C99_overlap
#print axioms Khepri.C100_orders
#print axioms Khepri.C100_even
#print axioms Khepri.C100_layer
#print axioms Khepri.C100_interface
#print axioms Khepri.C100_cascade
#print axioms Khepri.C100_device
#print axioms Khepri.C100_entries
#print axioms Khepri.C100_power
#print axioms Khepri.C100_weights
#print axioms Khepri.C101_moved
#print axioms Khepri.C101_interface_moved
#print axioms Khepri.C101_half_turn
#print axioms Khepri.C101_interface_half_turn
#print axioms Khepri.C101_device
#print axioms Khepri.C101_incident
#print axioms Khepri.C101_fluxes_moved
#print axioms Khepri.C101_fluxes_half_turn
#print axioms Khepri.C101_symmetric
#print axioms Khepri.C102_project
#print axioms Khepri.C102_project_reciprocal
#print axioms Khepri.C102_fields
#print axioms Khepri.C102_turned
#print axioms Khepri.C102_layer
#print axioms Khepri.C102_reciprocal
#print axioms Khepri.C102_transmission
#print axioms Khepri.C102_transmittance
#print axioms Khepri.C103_interface
#print axioms Khepri.C103_cascade
#print axioms Khepri.C103_device
#print axioms Khepri.C103_propagating
#print axioms Khepri.C103_lossless

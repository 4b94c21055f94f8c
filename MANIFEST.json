{
 "claims": [
  {
   "property": "C01",
   "status": "proved",
   "theorems": [
    "Khepri.C01_cascade_exact"
   ],
   "note": ""
  },
  {
   "property": "C02",
   "status": "proved",
   "theorems": [
    "Khepri.C02_cascade_fails_iff_resonance",
    "Khepri.C02_both_systems_singular_together"
   ],
   "note": ""
  },
  {
   "property": "C03",
   "status": "proved",
   "theorems": [
    "Khepri.C03_cascade_assoc",
    "Khepri.C03_cascade_assoc_ok",
    "Khepri.C03_inner_cascade_needed"
   ],
   "note": "C03_inner_cascade_needed shows the existence hypotheses on the inner cascades cannot be dropped."
  },
  {
   "property": "C04",
   "status": "proved",
   "theorems": [
    "Khepri.C04_identity_neutral",
    "Khepri.C04_identity_transparent"
   ],
   "note": ""
  },
  {
   "property": "C05",
   "status": "proved",
   "theorems": [
    "Khepri.C05_stack_layers",
    "Khepri.C05_only_linAlg"
   ],
   "note": "Non-empty stacks, mask of the same length (the only shape Crystal passes for non-void devices)."
  },
  {
   "property": "C06",
   "status": "proved",
   "theorems": [
    "Khepri.C06_interior_amplitudes",
    "Khepri.C06_stack_interior"
   ],
   "note": ""
  },
  {
   "property": "C07",
   "status": "proved",
   "theorems": [
    "Khepri.C07_layer_bvp"
   ],
   "note": ""
  },
  {
   "property": "C08",
   "status": "proved",
   "theorems": [
    "Khepri.C08_zero_thickness",
    "Khepri.C08_zero_thickness_ok_iff",
    "Khepri.C08_insert"
   ],
   "note": ""
  },
  {
   "property": "C09",
   "status": "proved",
   "theorems": [
    "Khepri.C09_two_slices",
    "Khepri.C09_slices"
   ],
   "note": ""
  },
  {
   "property": "C10",
   "status": "proved",
   "theorems": [
    "Khepri.C10_any_basis_any_roots",
    "Khepri.C10_structured_layer"
   ],
   "note": "numpy.linalg.eig is a parameter satisfying M W = W diag(lam2)."
  },
  {
   "property": "C11",
   "status": "proved",
   "theorems": [
    "Khepri.C11_reflection",
    "Khepri.C11_transmission"
   ],
   "note": ""
  },
  {
   "property": "C12",
   "status": "proved",
   "theorems": [
    "Khepri.C12_crystal",
    "Khepri.C12_crystal_unique",
    "Khepri.C12_device",
    "Khepri.C12_gap_independent",
    "Khepri.C12_device_maxwell"
   ],
   "note": ""
  },
  {
   "property": "C13",
   "status": "proved",
   "theorems": [
    "Khepri.C13_mirror",
    "Khepri.C13_mirror_symmetric_layers",
    "Khepri.C13_layers_symmetric"
   ],
   "note": ""
  },
  {
   "property": "C14",
   "status": "proved",
   "theorems": [
    "Khepri.C14_lossless_stack",
    "Khepri.C14_passive_stack"
   ],
   "note": ""
  },
  {
   "property": "C15",
   "status": "proved",
   "theorems": [
    "Khepri.C15_energy_conserved",
    "Khepri.C15_energy_absorbed",
    "Khepri.C15_angles_real"
   ],
   "note": "Real in-plane wave vector outside the cut-off window 0<|kp|<1e-8 of C17, in which the incident wave itself is not of unit length. Lossless: real permittivities everywhere (pixels, or host and islands of analytical layers). Absorbing analytical layers: through their convolution matrix."
  },
  {
   "property": "C16",
   "status": "proved",
   "theorems": [
    "Khepri.C16_nonneg",
    "Khepri.C16_total",
    "Khepri.C16_scale"
   ],
   "note": ""
  },
  {
   "property": "C17",
   "status": "partial",
   "theorems": [
    "Khepri.C17_only_specular",
    "Khepri.C17_unit_transverse_partial",
    "Khepri.C17_te_tm_orthogonal",
    "Khepri.C17_returns",
    "Khepri.C17_cutoff_bound",
    "Khepri.C17_cutoff_counterexample"
   ],
   "note": "False in the cutoff branch 0<|kp|<1e-8 (C17_cutoff_counterexample); C17_unit_transverse_partial covers every other direction, C17_cutoff_bound bounds the defect."
  },
  {
   "property": "C18",
   "status": "proved",
   "theorems": [
    "Khepri.C18_uniform_modes",
    "Khepri.C18_free_space",
    "Khepri.C18_uniform_eq_structured",
    "Khepri.C18_uniform_ok_iff"
   ],
   "note": ""
  },
  {
   "property": "C19",
   "status": "proved",
   "theorems": [
    "Khepri.C19_uniform_forward_decay",
    "Khepri.C19_structured_forward_decay",
    "Khepri.C19_half_space"
   ],
   "note": ""
  },
  {
   "property": "C20",
   "status": "partial",
   "theorems": [
    "Khepri.C20_own_modes_iff_real",
    "Khepri.C20_real_permittivity_partial",
    "Khepri.C20_counterexample"
   ],
   "note": "False for complex outer permittivities (C20_counterexample); C20_own_modes_iff_real gives the exact extent, C20_real_permittivity_partial the true part."
  },
  {
   "property": "C21",
   "status": "proved",
   "theorems": [
    "Khepri.C21_orders",
    "Khepri.C21_even_raises"
   ],
   "note": ""
  },
  {
   "property": "C22",
   "status": "proved",
   "theorems": [
    "Khepri.C22_duality",
    "Khepri.C22_returns_iff",
    "Khepri.C22_gvectors",
    "Khepri.C22_rotate"
   ],
   "note": ""
  },
  {
   "property": "C23",
   "status": "proved",
   "theorems": [
    "Khepri.C23_entries",
    "Khepri.C23_entries_any",
    "Khepri.C23_too_small_raises"
   ],
   "note": ""
  },
  {
   "property": "C24",
   "status": "proved",
   "theorems": [
    "Khepri.C24_hermitian",
    "Khepri.C24_constant",
    "Khepri.C24_lower_bound",
    "Khepri.C24_invertible"
   ],
   "note": ""
  },
  {
   "property": "C25",
   "status": "proved",
   "theorems": [
    "Khepri.C25_minkowski",
    "Khepri.C25_accepts_iff",
    "Khepri.C25_specular_middle"
   ],
   "note": ""
  },
  {
   "property": "C26",
   "status": "proved",
   "theorems": [
    "Khepri.C26_joint_subspace",
    "Khepri.C26_extend_lhs",
    "Khepri.C26_extend_rhs",
    "Khepri.C26_numbering",
    "Khepri.C26_foreign"
   ],
   "note": "Base layers that are Layer objects (an ExtendedLayer over a Crystal raises AttributeError in the code)."
  },
  {
   "property": "C27",
   "status": "proved",
   "theorems": [
    "Khepri.C27_cascade",
    "Khepri.C27_identity",
    "Khepri.C27_stack"
   ],
   "note": ""
  },
  {
   "property": "C28",
   "status": "proved",
   "theorems": [
    "Khepri.C28_freespace",
    "Khepri.C28_uniform"
   ],
   "note": "S-matrix and modes. The stored inverse permittivity IC of an extended layer is always 1 (see C34)."
  },
  {
   "property": "C29",
   "status": "proved",
   "theorems": [
    "Khepri.C29_order",
    "Khepri.C29_history"
   ],
   "note": ""
  },
  {
   "property": "C30",
   "status": "partial",
   "theorems": [
    "Khepri.C30_stale_counterexample",
    "Khepri.C30_unsolved_partial",
    "Khepri.C30_fresh_partial"
   ],
   "note": "False after set_source on a solved crystal (C30_stale_counterexample). C30_unsolved_partial and C30_fresh_partial cover the never-solved and the just-solved crystal."
  },
  {
   "property": "C31",
   "status": "partial",
   "theorems": [
    "Khepri.C31_kept_partial",
    "Khepri.C31_refused_partial",
    "Khepri.C31_matrices_partial",
    "Khepri.C31_query_partial",
    "Khepri.C31_void_counterexample",
    "Khepri.C31_twisted_partial"
   ],
   "note": "C31_kept_partial (every history of calls), C31_refused_partial, C31_matrices_partial and C31_query_partial cover crystals with outer media and masks that fit; the query theorems cover devices of plain layers and, with C31_twisted_partial, stacks of layers of two lattices. False for void crystals (C31_void_counterexample)."
  },
  {
   "property": "C32",
   "status": "proved",
   "theorems": [
    "Khepri.C32_locate"
   ],
   "note": "Crystals with outer media of depth 0 and layers of non-negative depth."
  },
  {
   "property": "C33",
   "status": "partial",
   "theorems": [
    "Khepri.C33_thickness_partial",
    "Khepri.C33_void_counterexample"
   ],
   "note": "False for void crystals (C33_void_counterexample). C33_thickness_partial covers every crystal with outer media."
  },
  {
   "property": "C34",
   "status": "partial",
   "theorems": [
    "Khepri.C34_fields_partial",
    "Khepri.C34_emergence_partial",
    "Khepri.C34_continuous",
    "Khepri.C34_emergence_counterexample"
   ],
   "note": "C34_fields_partial: every depth up to the end of the device, and beyond it in vacuum, where propagators are not clamped. C34_continuous: continuity. False behind a device that ends in another medium (C34_emergence_counterexample; C34_emergence_partial says exactly when it is right)."
  },
  {
   "property": "C35",
   "status": "proved",
   "theorems": [
    "Khepri.C35_linear",
    "Khepri.C35_real",
    "Khepri.C35_same_errors"
   ],
   "note": ""
  },
  {
   "property": "C36",
   "status": "proved",
   "theorems": [
    "Khepri.C36_bloch",
    "Khepri.C36_lattice",
    "Khepri.C36_rotate"
   ],
   "note": ""
  },
  {
   "property": "C37",
   "status": "partial",
   "theorems": [
    "Khepri.C37_quarter_partial",
    "Khepri.C37_counterexample"
   ],
   "note": "False (C37_counterexample): fields use half the amplitude of the fluxes. C37_quarter_partial proves the exact relation."
  },
  {
   "property": "C38",
   "status": "proved",
   "theorems": [
    "Khepri.C38_painter",
    "Khepri.C38_painter_unique",
    "Khepri.C38_accepts",
    "Khepri.C38_refuses",
    "Khepri.C38_copy",
    "Khepri.C38_islands_live"
   ],
   "note": "Parallelograms on lattices whose first vector lies along x and whose second one points up. islands() hands out the live list (C38_islands_live)."
  },
  {
   "property": "C39",
   "status": "partial",
   "theorems": [
    "Khepri.C39_grating_partial",
    "Khepri.C39_refuses",
    "Khepri.C39_missing",
    "Khepri.C39_uniform_counterexample",
    "Khepri.C39_lattice_counterexample"
   ],
   "note": "Proved for arrays with at least two materials on the default lattice (C39_grating_partial). False for uniform arrays (C39_uniform_counterexample) and other lattices (C39_lattice_counterexample)."
  },
  {
   "property": "C40",
   "status": "partial",
   "theorems": [
    "Khepri.C40_islands_partial",
    "Khepri.C40_overlap_counterexample",
    "Khepri.C40_parallelogram_counterexample",
    "Khepri.C40_ellipse_counterexample"
   ],
   "note": "False for overlapping shapes, parallelograms and ellipses (counterexamples). C40_islands_partial: rectangles and discs, wherever they do not overlap."
  },
  {
   "property": "C41",
   "status": "partial",
   "theorems": [
    "Khepri.C41_first_partial",
    "Khepri.C41_second_partial",
    "Khepri.C41_transposed",
    "Khepri.C41_exists",
    "Khepri.C41_counterexample"
   ],
   "note": "False (C41_counterexample): with orders along both vectors the pattern is transposed (C41_transposed). C41_first_partial, C41_second_partial: right for one-dimensional gratings."
  },
  {
   "property": "C42",
   "status": "proved",
   "theorems": [
    "Khepri.C42_rectangle",
    "Khepri.C42_exact",
    "Khepri.C42_zero",
    "Khepri.C42_conj"
   ],
   "note": "Integral to a relative accuracy of 1e-18 everywhere, exact outside the series window."
  },
  {
   "property": "C43",
   "status": "proved",
   "theorems": [
    "Khepri.C43_same",
    "Khepri.C43_exists",
    "Khepri.C43_unique",
    "Khepri.C43_compose",
    "Khepri.C43_chain",
    "Khepri.C43_assoc"
   ],
   "note": ""
  },
  {
   "property": "C44",
   "status": "proved",
   "theorems": [
    "Khepri.C44_inverse",
    "Khepri.C44_exists",
    "Khepri.C44_negative_float",
    "Khepri.C44_matched",
    "Khepri.C44_neutral"
   ],
   "note": "C44_negative_float: numpy's square root refuses negative float permittivities."
  },
  {
   "property": "C45",
   "status": "proved",
   "theorems": [
    "Khepri.C45_slicing",
    "Khepri.C45_whole",
    "Khepri.C45_depths"
   ],
   "note": "Square pw (for others the code's arrays have the wrong shape, C47)."
  },
  {
   "property": "C46",
   "status": "proved",
   "theorems": [
    "Khepri.C46_places",
    "Khepri.C46_injective",
    "Khepri.C46_incident",
    "Khepri.C46_incident_exists",
    "Khepri.C46_reads"
   ],
   "note": ""
  },
  {
   "property": "C47",
   "status": "partial",
   "theorems": [
    "Khepri.C47_partial",
    "Khepri.C47_counterexample"
   ],
   "note": "False (C47_counterexample). C47_partial says exactly when the shape is right."
  },
  {
   "property": "C48",
   "status": "proved",
   "theorems": [
    "Khepri.C48_same"
   ],
   "note": ""
  },
  {
   "property": "C49",
   "status": "proved",
   "theorems": [
    "Khepri.C49_square",
    "Khepri.C49_branch",
    "Khepri.C49_unique"
   ],
   "note": ""
  },
  {
   "property": "C50",
   "status": "partial",
   "theorems": [
    "Khepri.C50_partial",
    "Khepri.C50_scale_partial",
    "Khepri.C50_counterexample"
   ],
   "note": "C50_partial, C50_scale_partial: normalisation and scaling. False that the Bloch vector passed in is used (C50_counterexample)."
  },
  {
   "property": "C51",
   "status": "partial",
   "theorems": [
    "Khepri.C51_counterexample",
    "Khepri.C51_partial"
   ],
   "note": "False for every S-matrix (C51_counterexample). C51_partial identifies the neutral S-matrix."
  },
  {
   "property": "C52",
   "status": "proved",
   "theorems": [
    "Khepri.C52_bloch",
    "Khepri.C52_transfer",
    "Khepri.C52_det",
    "Khepri.C52_origin",
    "Khepri.C52_supercell",
    "Khepri.C52_lossless"
   ],
   "note": "C52_transfer: invertible transfer matrices."
  },
  {
   "property": "C53",
   "status": "proved",
   "theorems": [
    "Khepri.C53_gather",
    "Khepri.C53_stack",
    "Khepri.C53_grouping",
    "Khepri.C53_total",
    "Khepri.C53_device",
    "Khepri.C53_drawing",
    "Khepri.C53_drawn",
    "Khepri.C53_zero_repeat",
    "Khepri.C53_lattice"
   ],
   "note": "The script itself stops at an import that does not exist; its functions are modelled as they would run after it. C53_zero_repeat: why repeats must be at least 1."
  },
  {
   "property": "C54",
   "status": "proved",
   "theorems": [
    "Khepri.C54_dense",
    "Khepri.C54_dense_split",
    "Khepri.C54_split_dense",
    "Khepri.C54_refuses"
   ],
   "note": "Even sizes; other sizes lose a row or are refused (C54_refuses)."
  },
  {
   "property": "C55",
   "status": "proved",
   "theorems": [
    "Khepri.C55_grid",
    "Khepri.C55_inside",
    "Khepri.C55_distinct",
    "Khepri.C55_quadrature",
    "Khepri.C55_path",
    "Khepri.C55_path_defined"
   ],
   "note": ""
  },
  {
   "property": "C56",
   "status": "proved",
   "theorems": [
    "Khepri.C56_rotation",
    "Khepri.C56_fields",
    "Khepri.C56_frame",
    "Khepri.C56_rigid",
    "Khepri.C56_plane_wave"
   ],
   "note": ""
  },
  {
   "property": "C57",
   "status": "proved",
   "theorems": [
    "Khepri.C57_dft",
    "Khepri.C57_dft_finishes",
    "Khepri.C57_slow_dft",
    "Khepri.C57_roundtrip"
   ],
   "note": "prange bodies run as interleaved reads and writes; numba's reduction of += on arrays is per thread."
  },
  {
   "property": "C58",
   "status": "partial",
   "theorems": [
    "Khepri.C58_fourier_partial",
    "Khepri.C58_mirrored_partial",
    "Khepri.C58_counterexample"
   ],
   "note": "False (C58_counterexample). C58_fourier_partial: the Fourier components obey Maxwell's equations for exp(-ik.r); C58_mirrored_partial: so do the real-space fields read at the point mirrored in the plane."
  },
  {
   "property": "C59",
   "status": "proved",
   "theorems": [
    "Khepri.C59_disc",
    "Khepri.C59_zero"
   ],
   "note": "scipy's jv(1, .) enters through Poisson's integral (BesselOne)."
  },
  {
   "property": "C60",
   "status": "proved",
   "theorems": [
    "Khepri.C60_si",
    "Khepri.C60_modes",
    "Khepri.C60_layer",
    "Khepri.C60_interface",
    "Khepri.C60_stack",
    "Khepri.C60_uniform"
   ],
   "note": "Orders whose in-plane wave vector is 0 or at least 2^-26 long (where the code's direction is that of the wave vector)."
  },
  {
   "property": "C61",
   "status": "proved",
   "theorems": [
    "Khepri.C61_layer",
    "Khepri.C61_interface",
    "Khepri.C61_cascade",
    "Khepri.C61_device",
    "Khepri.C61_fluxes",
    "Khepri.C61_exists"
   ],
   "note": "No order within 2^-52 of grazing, as compute_currents tests."
  },
  {
   "property": "C62",
   "status": "proved",
   "theorems": [
    "Khepri.C62_angles",
    "Khepri.C62_opposite",
    "Khepri.C62_set_source"
   ],
   "note": ""
  },
  {
   "property": "C63",
   "status": "proved",
   "theorems": [
    "Khepri.C63_kind",
    "Khepri.C63_same"
   ],
   "note": "Whenever both forms can be solved."
  },
  {
   "property": "C64",
   "status": "partial",
   "theorems": [
    "Khepri.C64_partial",
    "Khepri.C64_counterexample"
   ],
   "note": "False (C64_counterexample): real parts within 1e-10 below 1 are kept, so propagating modes away from the zone centre are lost. C64_partial says exactly what is returned."
  },
  {
   "property": "C65",
   "status": "partial",
   "theorems": [
    "Khepri.C65_partial",
    "Khepri.C65_counterexample"
   ],
   "note": "False for arrays that are not square (C65_counterexample). C65_partial: square arrays."
  },
  {
   "property": "C66",
   "status": "partial",
   "theorems": [
    "Khepri.C66_partial",
    "Khepri.C66_defined",
    "Khepri.C66_counterexample"
   ],
   "note": "False whenever x or y is not constant (C66_counterexample): the step is (max - min)/n, not (max - min)/(n - 1). C66_partial: the exact points it evaluates at, for any sharing between threads."
  },
  {
   "property": "C67",
   "status": "partial",
   "theorems": [
    "Khepri.C67_shapes_partial",
    "Khepri.C67_disc_partial",
    "Khepri.C67_rectangle_partial",
    "Khepri.C67_counterexample"
   ],
   "note": "False (C67_counterexample): center and size of a rectangle are used as its two corners. C67_rectangle_partial: right exactly when the center is the origin. C67_disc_partial: discs are right."
  },
  {
   "property": "C68",
   "status": "partial",
   "theorems": [
    "Khepri.C68_gaussian",
    "Khepri.C68_vacuum_partial",
    "Khepri.C68_medium",
    "Khepri.C68_impedance",
    "Khepri.C68_vortex",
    "Khepri.C68_power",
    "Khepri.C68_waist"
   ],
   "note": "False outside vacuum: C68_medium and C68_impedance say the beam obeys the equation and the impedance of its medium exactly if er = 1 (k lacks a factor sqrt(er); hy is divided by it). C68_vacuum_partial: all orders p, l in vacuum. The other parts hold for all er."
  },
  {
   "property": "C69",
   "status": "partial",
   "theorems": [
    "Khepri.C69_volume",
    "Khepri.C69_volume_defined",
    "Khepri.C69_power_partial",
    "Khepri.C69_counterexample"
   ],
   "note": "fields_volume: proved. poynting_vector: false for the real part (C69_counterexample: a plane wave in vacuum gives 0), because H is returned scaled by i; C69_power_partial: the imaginary part of the cell average is the power through the plane, for all incidences."
  },
  {
   "property": "C70",
   "status": "proved",
   "theorems": [
    "Khepri.C70_coefficients",
    "Khepri.C70_fluxes",
    "Khepri.C70_interface"
   ],
   "note": "Real in-plane wave vector, no layer at grazing (eps = kx^2 + ky^2, where the code divides by zero). The fluxes exclude the cut-off window of C17."
  },
  {
   "property": "C71",
   "status": "partial",
   "theorems": [
    "Khepri.C71_accepts_name",
    "Khepri.C71_counterexample",
    "Khepri.C71_square",
    "Khepri.C71_hexagonal",
    "Khepri.C71_layers",
    "Khepri.C71_add_accepts",
    "Khepri.C71_device",
    "Khepri.C71_unknown",
    "Khepri.C71_multilayer",
    "Khepri.C71_from_expansion",
    "Khepri.C71_status"
   ],
   "note": "All proved except the documented lattice names: the constructor documents 'hexa', which it refuses (C71_counterexample); 'square' and 'hexagonal' are the names accepted (C71_accepts_name)."
  },
  {
   "property": "C72",
   "status": "proved",
   "theorems": [
    "Khepri.C72_source",
    "Khepri.C72_scattering",
    "Khepri.C72_fluxes"
   ],
   "note": "kp must be 0 or above the absolute 1e-8 cut-off of incident at both scales, and the reciprocal vectors above the same cut-off of the disc transform (Periods): those two constants are the only dimensional ones."
  },
  {
   "property": "C73",
   "status": "proved",
   "theorems": [
    "Khepri.C73_scattering",
    "Khepri.C73_fluxes",
    "Khepri.C73_normal",
    "Khepri.C73_angle"
   ],
   "note": "Oblique, normal incidence and the angle phi separately; Expansion.rotate leaves the lattice used by analytical layers in its own frame, which is what makes this hold for them."
  },
  {
   "property": "C74",
   "status": "proved",
   "theorems": [
    "Khepri.C74_scattering",
    "Khepri.C74_fluxes",
    "Khepri.C74_moved"
   ],
   "note": "Uniform and pixmap layers (C74_shift, C74_powers); uniform and analytical layers (C74_moved). Analytical layers exchange the two components of the orders (C41), so the phases are those of the exchanged orders: with P = Q, or a single order along an axis, the powers do not change all the same. With P and Q different and above 1 the table is read askew (C41) and nothing is claimed."
  },
  {
   "property": "C75",
   "status": "proved",
   "theorems": [
    "Khepri.C75_orders",
    "Khepri.C75_lorentz",
    "Khepri.C75_flipped",
    "Khepri.C75_reflectance",
    "Khepri.C75_transmittance"
   ],
   "note": "Lorentz's form is conserved through any device (C75_lorentz, C75_flipped); the unpolarised specular reflectance and transmittance follow. Conditions: real outer permittivities and real in-plane wave vector, eigenvalue routine obeying its contract, in-plane wave vector zero or above the 1e-8 cut-off of the polarisation vectors."
  },
  {
   "property": "C76",
   "status": "proved",
   "theorems": [
    "Khepri.C76_uniform",
    "Khepri.C76_structured",
    "Khepri.C76_assembled",
    "Khepri.C76_vacuum"
   ],
   "note": "Exact equality of matrices; the products taken by hand may be bracketed in any way that succeeds."
  },
  {
   "property": "C77",
   "status": "partial",
   "theorems": [
    "Khepri.C77_accepts",
    "Khepri.C77_lossy_counterexample",
    "Khepri.C77_layers",
    "Khepri.C77_depth",
    "Khepri.C77_periodic",
    "Khepri.C77_half_period_partial",
    "Khepri.C77_half_period_counterexample"
   ],
   "note": "Layers, order, depth, lattice and periodicity of the rods are proved for all arguments. Two clauses fail and are refuted: complex permittivities raise TypeError (C77_lossy_counterexample); the third row is the first one moved only for half of the widths (C77_half_period_counterexample, C77_half_period_partial)."
  },
  {
   "property": "C78",
   "status": "partial",
   "theorems": [
    "Khepri.C78_bloch_partial",
    "Khepri.C78_in_range",
    "Khepri.C78_counterexample",
    "Khepri.C78_memory",
    "Khepri.C78_memory_counterexample"
   ],
   "note": "Proved for square cells up to the factor NS (pixels per side), which is refuted for NS = 2 (C78_counterexample). For cells that are not square the result may contain uninitialised memory (C78_memory_counterexample)."
  },
  {
   "property": "C79",
   "status": "partial",
   "theorems": [
    "Khepri.C79_convolution",
    "Khepri.C79_accepts",
    "Khepri.C79_layout",
    "Khepri.C79_stride_counterexample",
    "Khepri.C79_quiver_partial",
    "Khepri.C79_quiver_counterexample",
    "Khepri.C79_positions",
    "Khepri.C79_coords"
   ],
   "note": "Convolution, memory safety and grids are proved for all positive strides. quiver exchanges the components (C79_quiver_counterexample; C79_quiver_partial states what it draws); a negative stride can read outside of the image (C79_stride_counterexample)."
  },
  {
   "property": "C80",
   "status": "partial",
   "theorems": [
    "Khepri.C80_fft_partial",
    "Khepri.C80_fft_scaled",
    "Khepri.C80_fft_scale_counterexample",
    "Khepri.C80_fft_bloch_counterexample",
    "Khepri.C80_fft_parity",
    "Khepri.C80_fft_square",
    "Khepri.C80_direct_partial",
    "Khepri.C80_direct_transposed",
    "Khepri.C80_direct_counterexample"
   ],
   "note": "fourier2real_fft: proved for square arrays and resolutions of the same parity, up to the factor T^2 and with the Bloch phase at other points than the periodic part (C80_fft_scale_counterexample, C80_fft_bloch_counterexample); other parities and shapes are refused (C80_fft_parity, C80_fft_square). fourier2direct2: proved for one-dimensional arrays; two-dimensional ones are transposed (C80_direct_counterexample)."
  },
  {
   "property": "C81",
   "status": "partial",
   "theorems": [
    "Khepri.C81_tmat_s",
    "Khepri.C81_tmat_p",
    "Khepri.C81_tmat_normal",
    "Khepri.C81_crystal_partial",
    "Khepri.C81_crystal_counterexample",
    "Khepri.C81_agree_partial",
    "Khepri.C81_agree_counterexample"
   ],
   "note": "T-matrix interface: proved for all orders, with the limit directions at normal incidence. Crystal interface: proved away from normal incidence, where te and tm are exchanged (C81_crystal_counterexample), so the interfaces disagree there (C81_agree_counterexample)."
  },
  {
   "property": "C82",
   "status": "partial",
   "theorems": [
    "Khepri.C82_vectors",
    "Khepri.C82_grid",
    "Khepri.C82_differences",
    "Khepri.C82_angle",
    "Khepri.C82_mask",
    "Khepri.C82_mask_counterexample",
    "Khepri.C82_set_gx",
    "Khepri.C82_set_gy",
    "Khepri.C82_eta_partial",
    "Khepri.C82_eta_counterexample",
    "Khepri.C82_units",
    "Khepri.C82_energy"
   ],
   "note": "Proved, except that the mask is in C order while amplitudes are in Fortran order (C82_mask_counterexample) and that eta_normal is stale after gx is assigned (C82_eta_counterexample)."
  },
  {
   "property": "C83",
   "status": "partial",
   "theorems": [
    "Khepri.C83_rows",
    "Khepri.C83_scale",
    "Khepri.C83_fields_partial",
    "Khepri.C83_normal_partial",
    "Khepri.C83_oblique_counterexample"
   ],
   "note": "Rows, scale invariance, the fields behind a row, and A = 0 at normal incidence are proved; at oblique incidence compute_fluxes weights the orders as at normal incidence, so that a lossless stack is said to absorb (C83_oblique_counterexample). C83_fields_partial states what R and T are."
  },
  {
   "property": "C84",
   "status": "proved",
   "theorems": [
    "Khepri.C84_interface",
    "Khepri.C84_normal"
   ],
   "note": "Between real positive media, no order grazing in the incidence medium."
  },
  {
   "property": "C85",
   "status": "proved",
   "theorems": [
    "Khepri.C85_maxwell",
    "Khepri.C85_unique",
    "Khepri.C85_energy",
    "Khepri.C85_absorbed",
    "Khepri.C85_registered"
   ],
   "note": "Over the model of eig as any routine with M W = W diag(lam). Energy balance outside the polarisation cut-off window of C17."
  },
  {
   "property": "C86",
   "status": "partial",
   "theorems": [
    "Khepri.C86_transverse_partial",
    "Khepri.C86_longitudinal_partial",
    "Khepri.C86_ez_counterexample"
   ],
   "note": "Transverse components (up to the end of the stack, and after it in vacuum), Hz everywhere, Ez in outer media and uniform layers. Ez in layers added with extended=True is the displacement (C86_ez_counterexample)."
  },
  {
   "property": "C87",
   "status": "proved",
   "theorems": [
    "Khepri.C87_first",
    "Khepri.C87_second"
   ],
   "note": "C87_first, C87_second. The S-matrices of both runs are pinned to Maxwell's equations and the joint equations restricted to the orders at the middle of the other lattice are those of the plain crystal."
  },
  {
   "property": "C88",
   "status": "proved",
   "theorems": [
    "Khepri.C88_lines"
   ],
   "note": "complete runs of plain crystals (set_device, set_source, solve, poynting_flux_end) with different numbers of orders, layers uniform or pixmaps; exact arithmetic"
  },
  {
   "property": "C89",
   "status": "proved",
   "theorems": [
    "Khepri.C89_turned",
    "Khepri.C89_exchanged",
    "Khepri.C89_half_turn",
    "Khepri.C89_mirror",
    "Khepri.C89_symmetric"
   ],
   "note": "complete runs of plain crystals, layers uniform or pixmaps (the analytical shapes, whose series is cut for small arguments, are left out); np.flip of pixmaps of different sizes is not a symmetry of the stack because pixel i sits at i/n of the period (see DESIGN.md)"
  },
  {
   "property": "C90",
   "status": "proved",
   "theorems": [
    "Khepri.C90_unpolarised",
    "Khepri.C90_mirror",
    "Khepri.C90_rectangular",
    "Khepri.C90_exchange",
    "Khepri.C90_grating"
   ],
   "note": "Any device: the sum over two orthogonal polarisations does not depend on the pair, order by order (C90_unpolarised). Mirror-symmetric devices lit in the mirror plane: R, T and pairs of orders are intensity-weighted means (C90_mirror for a general mirror and lattice, C90_rectangular for np.flip along the second axis, C90_exchange for transposed patterns). Gratings with one order along the lines: each order (C90_grating). Wave vectors with 0 < |kp| < 1e-8 are excluded, as in C89, because the code switches the meaning of te and tm there."
  },
  {
   "property": "C91",
   "status": "partial",
   "theorems": [
    "Khepri.C91_coefficients",
    "Khepri.C91_apart",
    "Khepri.C91_fluxes",
    "Khepri.C91_agree_partial",
    "Khepri.C91_counterexample"
   ],
   "note": "Coefficients (C91_coefficients), independence of the orders (C91_apart) and powers at normal incidence (C91_fluxes) are proved for all stacks. The agreement with the crystal interface (C91_agree_partial) holds with conjugate permittivities: the two interfaces have opposite time conventions, and for the same complex permittivity they give different powers (C91_counterexample: permittivity -2i). Orders with 0 < |k|^2 < 2^-52 (where the code replaces the direction) and layers at grazing incidence are excluded from the coefficients; the agreement is stated at normal incidence."
  },
  {
   "property": "C92",
   "status": "partial",
   "theorems": [
    "Khepri.C92_pixmap_partial",
    "Khepri.C92_counterexample",
    "Khepri.C92_exact"
   ],
   "note": "The result is the Fourier coefficient times number of pixels / sigma (C92_pixmap_partial), so right for all maps of a size exactly if sigma is the number of pixels (C92_exact); wrong when given the area (C92_counterexample)."
  },
  {
   "property": "C93",
   "status": "proved",
   "theorems": [
    "Khepri.C93_displaced",
    "Khepri.C93_swapped",
    "Khepri.C93_rotated",
    "Khepri.C93_turned",
    "Khepri.C93_scaled"
   ],
   "note": "In (a) the displacement of the islands is under the condition of C74 on the numbers of orders. (a) is a property of the truncated calculation and also of the device: an incommensurate pair has every relative position somewhere."
  },
  {
   "property": "C94",
   "status": "proved",
   "theorems": [
    "Khepri.C94_half_spaces",
    "Khepri.C94_layer",
    "Khepri.C94_device",
    "Khepri.C94_powers",
    "Khepri.C94_power_lost"
   ],
   "note": "Existence, not just what follows from success: interfaces (C94_half_spaces), layers (C94_layer), devices (C94_device), powers (C94_powers), R + T < 1 (C94_power_lost). Asked of the eigensolver: EigContract, and independent eigenvectors on the layers that are not uniform."
  },
  {
   "property": "C95",
   "status": "proved",
   "theorems": [
    "Khepri.C95_device",
    "Khepri.C95_powers",
    "Khepri.C95_power_lost"
   ],
   "note": "Existence (C95_device), powers (C95_powers), R + T < 1 (C95_power_lost), in the joint space of two lattices. Asked of the eigensolver: EigContract, and independent eigenvectors at each shifted wave vector for the layers that are not uniform."
  },
  {
   "property": "C96",
   "status": "partial",
   "theorems": [
    "Khepri.C96_uniform_layer_partial",
    "Khepri.C96_device_partial",
    "Khepri.C96_uniform_stack_partial",
    "Khepri.C96_counterexample"
   ],
   "note": "False in the code: each layer is first solved alone in vacuum, so a lossless slab that guides light in vacuum makes solve raise although the device between denser media has no guided mode (C96_counterexample; the same slab given as two halves is solved). Proved: a device without gain is solved exactly when each of its layers is (C96_device_partial), uniform layers without gain are solved whenever every order propagates in vacuum (C96_uniform_layer_partial), hence stacks of them (C96_uniform_stack_partial)."
  },
  {
   "property": "C97",
   "status": "partial",
   "theorems": [
    "Khepri.C97_range_partial",
    "Khepri.C97_absorbing_partial",
    "Khepri.C97_strictly_absorbing_partial",
    "Khepri.C97_invertible_partial",
    "Khepri.C97_energy_partial",
    "Khepri.C97_overlap",
    "Khepri.C97_counterexample"
   ],
   "note": "False in the code with different numbers (both above one) of orders along the two lattice vectors: the table of transforms is read with the wrong row length (C41), and a thin lossy bar in vacuum with 5 x 3 orders makes a layer with gain (C97_counterexample). Proved for orders along one vector and for equal numbers, where the quadratic form of the matrix is the mean of the permittivity weighted by the intensity of a superposition of plane waves, up to the accuracy with which small transforms of rectangles are computed (C97_range_partial and the others). Overlapping islands also break it (C97_overlap)."
  },
  {
   "property": "C98",
   "status": "proved",
   "theorems": [
    "Khepri.C98_lorentz",
    "Khepri.C98_flipped",
    "Khepri.C98_reflectance",
    "Khepri.C98_transmittance"
   ],
   "note": ""
  },
  {
   "property": "C99",
   "status": "proved",
   "theorems": [
    "Khepri.C99_layer",
    "Khepri.C99_discs",
    "Khepri.C99_through",
    "Khepri.C99_lossy",
    "Khepri.C99_exists",
    "Khepri.C99_cascade",
    "Khepri.C99_device",
    "Khepri.C99_interface",
    "Khepri.C99_fluxes",
    "Khepri.C99_thin",
    "Khepri.C99_overlap"
   ],
   "note": "Poynting's inequality along the system that layers exponentiate, with the quadratic forms of both coupling matrices bounded as in C97; strict losses exclude a singular block. C99_overlap shows that overlap must be excluded."
  },
  {
   "property": "C100",
   "status": "proved",
   "theorems": [
    "Khepri.C100_orders",
    "Khepri.C100_even",
    "Khepri.C100_layer",
    "Khepri.C100_interface",
    "Khepri.C100_cascade",
    "Khepri.C100_device",
    "Khepri.C100_entries",
    "Khepri.C100_power",
    "Khepri.C100_weights"
   ],
   "note": "Lorentz form of layers, interface, cascades and devices at opposite in-plane wave vectors; entries and powers; even grids have orders without opposite."
  },
  {
   "property": "C101",
   "status": "proved",
   "theorems": [
    "Khepri.C101_moved",
    "Khepri.C101_interface_moved",
    "Khepri.C101_half_turn",
    "Khepri.C101_interface_half_turn",
    "Khepri.C101_device",
    "Khepri.C101_incident",
    "Khepri.C101_fluxes_moved",
    "Khepri.C101_fluxes_half_turn",
    "Khepri.C101_symmetric"
   ],
   "note": "Moved islands: any grid accepted by the code, any displacement; half a turn: odd numbers of orders. Layers, interface, stacks of layers, powers of specular sources, symmetry of the S-matrix of devices that half a turn does not change."
  },
  {
   "property": "C102",
   "status": "proved",
   "theorems": [
    "Khepri.C102_project",
    "Khepri.C102_project_reciprocal",
    "Khepri.C102_fields",
    "Khepri.C102_turned",
    "Khepri.C102_layer",
    "Khepri.C102_reciprocal",
    "Khepri.C102_transmission",
    "Khepri.C102_transmittance"
   ],
   "note": "The stack is assembled as ez.py:139-153 does for a list of layers (deviceOf); the transmittance statement is for odd grids, where the reciprocity of C100 holds, and at normal incidence, the only one compute_fluxes treats."
  },
  {
   "property": "C103",
   "status": "proved",
   "theorems": [
    "Khepri.C103_interface",
    "Khepri.C103_cascade",
    "Khepri.C103_device",
    "Khepri.C103_propagating",
    "Khepri.C103_lossless"
   ],
   "note": "Grazing incidence in the incidence medium, where the code divides by kz, is excluded by hypothesis. Transparent layers are covered when every order propagates in the incidence medium (C103_lossless); with evanescent orders nothing is claimed about their cascades."
  }
 ]
}
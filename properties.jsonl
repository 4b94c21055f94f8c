{"id": "C01", "title": "Cascading two S-matrices is physically exact", "statement": "Whenever redheffer_product(SA, SB) returns S, then for all left/right incoming and outgoing amplitude vectors, S maps the incoming pair to the outgoing pair if and only if there are amplitudes on the plane between A and B that satisfy both SA and SB. S is the only matrix with that property.", "quantifier": "all matrix sizes, all pairs of S-matrices, all amplitude vectors", "why_tests_cant": "A test fixes a few matrices; the claim is an equivalence over a continuum of matrices and amplitudes, including nearly resonant ones.", "anchors": ["khepri/alternative.py:redheffer_product"]}
{"id": "C02", "title": "A cascade fails exactly at a resonance of the junction", "statement": "redheffer_product(SA, SB) raises LinAlgError if and only if some non-zero wave can circulate between A and B with nothing coming in from outside (x+ = SA22 x-, x- = SB11 x+); in particular its two internal linear systems are either both solvable or both singular, so it never fails half-way.", "quantifier": "all matrix sizes, all pairs of S-matrices", "why_tests_cant": "Singular junctions form a measure-zero set that sampled tests never hit.", "anchors": ["khepri/alternative.py:redheffer_product"]}
{"id": "C03", "title": "Cascading is associative", "statement": "redheffer_product(redheffer_product(A,B),C) and redheffer_product(A,redheffer_product(B,C)) are equal, and if A*B, B*C and (A*B)*C return a value then so does A*(B*C) (and conversely), so the bracketing of a stack never changes the answer.", "quantifier": "all sizes and all triples of S-matrices", "why_tests_cant": "Universal algebraic law over a continuum, including when each intermediate product is defined.", "anchors": ["khepri/alternative.py:redheffer_product"]}
{"id": "C04", "title": "scattering_identity is neutral for the cascade", "statement": "For every S-matrix S, cascading scattering_identity(pw, block=True) on either side returns exactly S and never raises.", "quantifier": "all plane-wave counts, all S-matrices", "why_tests_cant": "Universal over matrices and sizes.", "anchors": ["khepri/alternative.py:scattering_identity", "khepri/alternative.py:redheffer_product"]}
{"id": "C05", "title": "stack_layers returns the ordered cascade and matching prefix/suffix matrices", "statement": "For a list of layers and a mask of the same length, when stack_layers succeeds: Stot relates the two outside planes exactly as the chain of all layers in order does; entry i of the first list is the cascade of layers 0..i when mask[i] is set and None otherwise; entry i of the second list is the cascade of layers i+1..end when mask[i] is set or i = 0 and None otherwise; both lists have the length of the stack; and cascading prefix i with suffix i gives Stot for every retained i.", "quantifier": "all stacks of any length, all masks", "why_tests_cant": "Induction over stack length and masks; tests use two or three layers with one mask.", "anchors": ["khepri/layer.py:stack_layers"]}
{"id": "C06", "title": "Interior mode amplitudes are the true ones", "statement": "When a stack is excited from the left only, translate_mode_amplitudes(Sl, Sr, c1p, ...) returns the unique forward/backward amplitudes on the plane between Sl and Sr that are compatible with both halves, consistent with the reflected and transmitted amplitudes of the full stack; it succeeds whenever the full stack's matrix can be formed.", "quantifier": "all splits of all stacks, all incident vectors", "why_tests_cant": "Universal over matrices and incident vectors; a test would compare only a few numbers.", "anchors": ["khepri/fields.py:translate_mode_amplitudes", "khepri/crystal.py:Crystal._fourier_fields"]}
{"id": "C07", "title": "A layer S-matrix solves the layer's boundary-value problem", "statement": "When build_scatmat(W, V, W0, V0, lam, d, k0) returns S, amplitudes in the surrounding gap medium satisfy S if and only if tangential E and H built from them are continuous at both faces with a field inside the layer that is a superposition of the layer's modes propagating as exp(-lam*k0*d) forward and exp(+lam*k0*d) backward.", "quantifier": "all eigenbases, eigenvalues, depths, wavelengths and amplitudes", "why_tests_cant": "Equivalence over continuous data of any dimension.", "anchors": ["khepri/alternative.py:build_scatmat", "khepri/fields.py:layer_eigenbasis_matrix"]}
{"id": "C08", "title": "A zero-thickness layer is transparent", "statement": "Whatever the material, build_scatmat with depth 0 (hence a layer of depth 0 of any kind) returns exactly scattering_identity whenever it returns, so inserting it anywhere in a device changes nothing.", "quantifier": "all eigenbases, wavelengths and positions in a stack", "why_tests_cant": "Universal over materials, modes and stacks.", "anchors": ["khepri/alternative.py:build_scatmat", "khepri/alternative.py:scattering_identity"]}
{"id": "C09", "title": "Cutting a layer into slices does not change the device", "statement": "Cascading the S-matrices of two layers of the same material with depths d1 and d2 gives the S-matrix of one layer of depth d1+d2 whenever all of them exist; likewise for any number of slices.", "quantifier": "all materials, all depths, any number of slices", "why_tests_cant": "Semigroup law over reals and any number of slices.", "anchors": ["khepri/alternative.py:build_scatmat", "khepri/alternative.py:redheffer_product"]}
{"id": "C10", "title": "The layer S-matrix does not depend on the eigen-solver's arbitrary choices", "statement": "For a structured layer, any two eigen-decompositions of P@Q that numpy.linalg.eig may return (different order, scaling, mixing of degenerate modes) and any choice of sign of each square root give the same S-matrix whenever both give one.", "quantifier": "all permittivity matrices, wave vectors, eigenbases, root signs, depths", "why_tests_cant": "The set of admissible eigenbases is a continuum chosen by LAPACK; tests see one.", "anchors": ["khepri/alternative.py:solve_structured_layer", "khepri/alternative.py:build_scatmat"]}
{"id": "C11", "title": "Half-space S-matrices express field continuity at the outer interfaces", "statement": "scattering_reflection (scattering_transmission) returns the unique S-matrix relating amplitudes of the outer medium's modes to gap-medium amplitudes by continuity of tangential E and H at the first (last) interface.", "quantifier": "all wave vectors, permittivities and amplitudes", "why_tests_cant": "Equivalence over continuous data of any dimension.", "anchors": ["khepri/alternative.py:scattering_reflection", "khepri/alternative.py:scattering_transmission"]}
{"id": "C12", "title": "The solved device is the unique solution of the whole stack's boundary-value problem", "statement": "When Crystal.solve succeeds, Stot relates incoming and outgoing amplitudes of the incidence and emergence media exactly when there is a field that propagates by each layer's modes and is continuous at every interface. The fictitious gap medium used internally has no effect on the result.", "quantifier": "all devices of any number of layers, all sources", "why_tests_cant": "Holds for every stack length and every gap medium; tests compare a few spectra.", "anchors": ["khepri/crystal.py:Crystal.solve", "khepri/layer.py:stack_layers", "khepri/layer.py:Layer.solve"]}
{"id": "C13", "title": "Mirror symmetry of stacks", "statement": "Reversing the order of a stack of (mirror-symmetric) layers exchanges left and right: the new S-matrix has 11<->22 and 12<->21 swapped, and one exists iff the other does.", "quantifier": "all stacks of any length", "why_tests_cant": "Induction over stack length on continuous data.", "anchors": ["khepri/alternative.py:redheffer_product", "khepri/alternative.py:build_scatmat", "khepri/layer.py:stack_layers"]}
{"id": "C14", "title": "Lossless parts make a lossless stack, passive parts a passive stack", "statement": "If every S-matrix of a stack conserves (resp. does not increase) power in a common amplitude normalisation then so does the cascaded matrix.", "quantifier": "all stacks of any length", "why_tests_cant": "Universal over unitary/contractive matrices of any size and stacks of any length.", "anchors": ["khepri/alternative.py:redheffer_product", "khepri/layer.py:stack_layers"]}
{"id": "C15", "title": "Energy conservation R + T = 1", "statement": "For real wave vectors, real positive outer permittivities, a propagating incident wave, no grazing order, and layers whose permittivity (convolution) matrix is Hermitian, the (R, T) returned by poynting_flux_end satisfy R + T = 1 exactly; when layers absorb (permittivity with the sign convention of loss) R + T <= 1.", "quantifier": "all lossless/absorbing devices of any number of layers and any plane-wave count, all incidence angles and polarisations", "why_tests_cant": "Tests check a handful of spectra to a tolerance; the law is for all devices.", "anchors": ["khepri/crystal.py:Crystal.poynting_flux_end", "khepri/alternative.py:poynting_fluxes", "khepri/alternative.py:incident"]}
{"id": "C16", "title": "Reflectance and transmittance are non-negative and independent of source scale and phase", "statement": "R and T, in total and order by order, are >= 0 and are unchanged when te and tm are multiplied by a common non-zero complex factor.", "quantifier": "all devices, sources and factors", "why_tests_cant": "Universal over complex factors and devices.", "anchors": ["khepri/alternative.py:poynting_fluxes", "khepri/alternative.py:incident", "khepri/crystal.py:Crystal.poynting_flux_end"]}
{"id": "C17", "title": "The incident vector is a unit transverse plane wave in the specular order", "statement": "incident(pw, te, tm, k) has non-zero entries only at the G = 0 order of Expansion(pw) (also for the sum of two expansions), its polarisation is orthogonal to k and, with normalisation, has unit norm including the longitudinal component; te and tm are orthogonal polarisations.", "quantifier": "all odd plane-wave counts, real k with k_z != 0, all (te, tm) != (0,0)", "why_tests_cant": "All sizes and directions.", "anchors": ["khepri/alternative.py:incident", "khepri/expansion.py:generate_expansion_indices", "khepri/expansion.py:Expansion.__add__"]}
{"id": "C18", "title": "Uniform layers: modes solve Maxwell's eigenproblem", "statement": "solve_uniform_layer and free_space_eigenmodes return W, V, lam with P Q W = W diag(lam^2) and V = Q W / lam for the uniform permittivity matrix eps*I; hence a uniform layer and a pixmap layer with a constant map have the same S-matrix whenever both are formed.", "quantifier": "all permittivities, wave vectors, plane-wave counts and depths", "why_tests_cant": "Universal over continuous data.", "anchors": ["khepri/alternative.py:solve_uniform_layer", "khepri/alternative.py:free_space_eigenmodes", "khepri/layer.py:Layer.pixmap_or_uniform"]}
{"id": "C19", "title": "Forward modes never grow", "statement": "For a uniform lossless or absorbing layer (Im eps <= 0 in the code's time convention) and real in-plane wave vectors, every forward factor exp(-lam*k0*d) has modulus <= 1, with modulus < 1 for evanescent or absorbed modes; in half spaces with real permittivity likewise.", "quantifier": "all real in-plane wave vectors, all eps with Im eps <= 0, all depths >= 0", "why_tests_cant": "Branch-cut choice must be right on the whole complex plane.", "anchors": ["khepri/alternative.py:solve_uniform_layer", "khepri/alternative.py:scattering_reflection", "khepri/alternative.py:free_space_eigenmodes", "khepri/expansion.py:kz_from_kplanar"]}
{"id": "C20", "title": "Half spaces use the modes of their own medium", "statement": "The eigenvalues and V returned by scattering_reflection / scattering_transmission are those of the outer medium: lam^2 is the eigenvalue of P Q for that permittivity.", "quantifier": "all real and complex outer permittivities", "why_tests_cant": "Only complex outer media reveal a branch/conjugation error, and only through a wrong spectrum.", "anchors": ["khepri/alternative.py:scattering_reflection", "khepri/alternative.py:scattering_transmission"]}
{"id": "C21", "title": "Expansion indices enumerate each diffraction order once, centred and symmetric", "statement": "For odd pw, generate_expansion_indices(pw) lists every (m,n) with |m|<=(pw0-1)/2, |n|<=(pw1-1)/2 exactly once, order g and order prod(pw)-1-g are opposite, and (0,0) is at position (prod(pw)-1)//2; for any even count it raises.", "quantifier": "all plane-wave counts", "why_tests_cant": "Holds for every pw.", "anchors": ["khepri/expansion.py:generate_expansion_indices"]}
{"id": "C22", "title": "Reciprocal lattice duality", "statement": "reciproc(a1,a2) satisfies a_i . b_j = 2 pi delta_ij whenever the cell area is non-zero; Expansion g-vectors are the integer combinations of b1,b2; rotate() by an angle preserves all lengths and mutual products and rotating by a then b equals rotating by a+b; the sense is counterclockwise.", "quantifier": "all lattices (square, hexagonal, explicit), all angles", "why_tests_cant": "Universal over real lattices.", "anchors": ["khepri/tools.py:reciproc", "khepri/tools.py:unitcellarea", "khepri/tools.py:rotation_matrix", "khepri/expansion.py:Expansion"]}
{"id": "C23", "title": "The convolution matrix pairs each two orders with the Fourier coefficient of their difference, or raises", "statement": "convolution_matrix(structure, pw)[row, col] is the discrete Fourier coefficient of the structure at the difference of the orders listed by generate_expansion_indices at row and col; if the pixmap is too small to hold every difference (Nx < 2P-1 or Ny < 2Q-1) IndexError is raised and no aliased matrix is ever returned.", "quantifier": "all pixmap sizes and plane-wave counts, odd and even", "why_tests_cant": "numpy negative indices wrap silently; only a proof over all sizes excludes aliasing.", "anchors": ["khepri/tools.py:convolution_matrix", "khepri/tools.py:convolution_matrix_fourier", "khepri/expansion.py:generate_expansion_indices"]}
{"id": "C24", "title": "Convolution matrix of a real map is Hermitian, of a positive map positive definite, of a constant map a multiple of the identity", "statement": "For a real pixmap C is Hermitian; if all pixels are >= e0 > 0 then v* C v >= e0 |v|^2 so C is invertible and layer solving cannot fail there; for a constant map C = eps*I.", "quantifier": "all pixmaps and plane-wave counts", "why_tests_cant": "Universal over real images.", "anchors": ["khepri/tools.py:convolution_matrix", "khepri/layer.py:Layer.solve"]}
{"id": "C25", "title": "The sum of two expansions is the Minkowski sum with the specular order in the middle", "statement": "(e1+e2).g_vectors lists g1+g2 for every pair exactly once with e1 as the slow index and e2 as the fast one, in the position used by extended layers; with centred operands the middle entry is G=0; operands with different numbers of orders are rejected.", "quantifier": "all pairs of expansions, rotated or not", "why_tests_cant": "Universal over sizes and lattices.", "anchors": ["khepri/expansion.py:Expansion.__add__"]}
{"id": "C26", "title": "Extended layers couple exactly the orders of the joint expansion", "statement": "Entry (a,j),(b,j') of an extended layer's matrix is the base layer's entry for the corresponding base orders solved at the wave vector shifted by the other lattice's g-vector when j and j' share that g-vector, and 0 otherwise, with j numbered as in the sum of expansions; in particular in-plane wave vectors match in both numbering modes.", "quantifier": "all numbers of plane waves, both modes", "why_tests_cant": "The stride arithmetic (as_strided views) must be right for every N; an off-by-one silently scrambles orders.", "anchors": ["khepri/extension.py:_joint_subspace", "khepri/extension.py:joint_subspace", "khepri/extension.py:ExtendedLayer.solve"]}
{"id": "C27", "title": "Extending commutes with stacking", "statement": "Extending a list of S-matrices to the joint space and cascading gives the same result as cascading first and extending afterwards (and one exists iff the other does); extending the identity gives the identity.", "quantifier": "all sizes, both modes, all S-matrices", "why_tests_cant": "Homomorphism law over all matrices.", "anchors": ["khepri/extension.py:joint_subspace", "khepri/alternative.py:redheffer_product"]}
{"id": "C28", "title": "Free space and uniform layers look the same from both lattices", "statement": "extended_freespace equals free_space_eigenmodes evaluated on the joint expansion's own wave vectors, in both modes; a uniform layer extended from the left or the right lattice has the same S-matrix as the uniform layer solved directly on the joint expansion.", "quantifier": "all lattices, wave vectors, permittivities, depths", "why_tests_cant": "Universal over lattices and twist angles.", "anchors": ["khepri/extension.py:extended_freespace", "khepri/extension.py:ExtendedLayer.solve", "khepri/alternative.py:free_space_eigenmodes"]}
{"id": "C29", "title": "Solving is history- and order-independent", "statement": "After solve(), Stot and all retained matrices depend only on the current layers, device, mask and source: not on earlier sources, solves, devices, nor on the (randomised) order in which Python's set iterates over the required layers.", "quantifier": "all histories of Crystal calls, all set iteration orders", "why_tests_cant": "Quantifies over histories and schedules; string-hash randomisation changes the order per process.", "anchors": ["khepri/crystal.py:Crystal.solve", "khepri/crystal.py:Crystal.set_source", "khepri/crystal.py:Crystal.set_device", "khepri/layer.py:Layer.solve", "khepri/extension.py:ExtendedLayer.solve"]}
{"id": "C30", "title": "Fluxes reported are those of the current source", "statement": "poynting_flux_end() always answers for the source set last: it raises if the device has not been solved for it.", "quantifier": "all histories of set_source / solve / query calls", "why_tests_cant": "A freshness property over all call sequences.", "anchors": ["khepri/crystal.py:Crystal.poynting_flux_end", "khepri/crystal.py:Crystal.solved", "khepri/crystal.py:Crystal.set_source"]}
{"id": "C31", "title": "Fields are available exactly where requested", "statement": "After set_device(stack, mask) and solve(), every layer whose mask entry is True (and both outer media) keeps its modes and its prefix/suffix matrices, so field queries there do not raise; a layer never requested keeps none.", "quantifier": "all stacks, masks, repeated layers, repeated set_device calls, void or not", "why_tests_cant": "Quantifies over stacks, masks and histories.", "anchors": ["khepri/crystal.py:Crystal.set_device", "khepri/layer.py:stack_layers", "khepri/layer.py:Layer.solve"]}
{"id": "C32", "title": "Depth lookup finds the right layer", "statement": "After solve() of a non-void device with non-negative depths, for every finite z locate_layer(z) returns the incidence medium for z<=0, the emergence medium for z beyond the device, and otherwise the unique layer whose depth interval (lower, upper] contains z, with the local coordinate measured from its left face.", "quantifier": "all stacks and all real z", "why_tests_cant": "All real z and all stacks, including repeated and zero-thickness layers.", "anchors": ["khepri/crystal.py:Crystal.locate_layer", "khepri/crystal.py:Crystal.solve"]}
{"id": "C33", "title": "Device thickness is consistent", "statement": "After solve(), zmax equals depth and equals the sum of the depths of the device's layers (with repetition).", "quantifier": "all devices", "why_tests_cant": "All stacks.", "anchors": ["khepri/crystal.py:Crystal.depth", "khepri/crystal.py:Crystal.zmax"]}
{"id": "C34", "title": "Computed tangential fields are continuous and propagate correctly", "statement": "The transverse Fourier fields returned for a depth z are those of the unique solution excited by the given incident wave: they are continuous in z across every interface and inside each layer evolve by that layer's modes, including in the emergence half space.", "quantifier": "all devices, all depths, all incident vectors", "why_tests_cant": "Continuity at every interface of every device.", "anchors": ["khepri/crystal.py:Crystal._fourier_fields", "khepri/fields.py:fourier_fields_from_mode_amplitudes", "khepri/fields.py:translate_mode_amplitudes"]}
{"id": "C35", "title": "Fields are linear in the source", "statement": "fields_coords_xy for a superposition of incident field vectors is the superposition of the fields, at every depth, including where the growing-phasor clamp is active.", "quantifier": "all devices, positions, incident vectors and coefficients", "why_tests_cant": "Linearity over a continuum; Brillouin-zone integration relies on it.", "anchors": ["khepri/crystal.py:Crystal._fourier_fields", "khepri/crystal.py:Crystal.fields_coords_xy", "khepri/fields.py:fourier_fields_from_mode_amplitudes", "khepri/fourier.py:idft"]}
{"id": "C36", "title": "Real-space fields obey Bloch's theorem", "statement": "Shifting the evaluation point by a lattice vector multiplies every field component by exp(i k_parallel . a).", "quantifier": "all lattices, Bloch vectors, points and Fourier amplitudes", "why_tests_cant": "All lattices and points.", "anchors": ["khepri/fourier.py:idft", "khepri/crystal.py:Crystal.fields_coords_xy", "khepri/expansion.py:Expansion.k_vectors"]}
{"id": "C37", "title": "Fields and fluxes are computed for the same incident amplitude", "statement": "The forward amplitude used by fields_coords_xy for the default source equals the one used by poynting_flux_end.", "quantifier": "all devices and sources", "why_tests_cant": "Relates two API results for every device.", "anchors": ["khepri/crystal.py:Crystal.get_source_as_field_vectors", "khepri/crystal.py:Crystal._fourier_fields", "khepri/crystal.py:Crystal.poynting_flux_end"]}
{"id": "C38", "title": "Later shapes paint over earlier ones", "statement": "After any sequence of Drawing calls, canvas() at a pixel is the permittivity of the last drawn shape containing the pixel, or the background; canvas() hands out a copy that later drawing cannot change.", "quantifier": "all drawing sequences, pixels and shapes", "why_tests_cant": "Induction over drawing histories.", "anchors": ["khepri/draw.py:Drawing.disc", "khepri/draw.py:Drawing.rectangle", "khepri/draw.py:Drawing.ellipse", "khepri/draw.py:Drawing.parallelogram", "khepri/draw.py:Drawing.canvas"]}
{"id": "C39", "title": "from_numpy reproduces a 1D grating exactly", "statement": "For a 1D array X with at least two materials including the drawing's background, from_numpy(X) on a fresh drawing of the same length leaves canvas() equal to X, and the recorded islands are exactly the maximal runs of non-background material.", "quantifier": "all arrays of any length", "why_tests_cant": "Run-length logic and inclusive pixel boundaries must be right for every length and pattern.", "anchors": ["khepri/draw.py:Drawing.from_numpy", "khepri/draw.py:Drawing.rectangle"]}
{"id": "C40", "title": "Islands and canvas describe the same structure", "statement": "For a drawing made of discs and rectangles, host plus sum of (eps_i - host) over the islands containing a point equals the painted value (so that the analytical Fourier sum is that of the painted pattern).", "quantifier": "all drawing sequences and points", "why_tests_cant": "Fails only for overlapping shapes; universal over histories.", "anchors": ["khepri/draw.py:Drawing.islands", "khepri/fourier.py:combine_fourier_masks"]}
{"id": "C41", "title": "Analytical and pixmap layers give the same pattern the same orientation", "statement": "add_layer_analytical(islands) and add_layer_pixmap(canvas) of one drawing build convolution matrices whose (row, col) entries are Fourier coefficients at the same order difference (m,n).", "quantifier": "all plane-wave counts and patterns", "why_tests_cant": "Only x/y-asymmetric patterns reveal a transposition; the repository's tests use symmetric ones.", "anchors": ["khepri/layer.py:Layer.solve", "khepri/fourier.py:combine_fourier_masks", "khepri/expansion.py:Expansion.g_vectors_expanded", "khepri/tools.py:convolution_matrix_fourier"]}
{"id": "C42", "title": "Rectangle transform is the exact Fourier integral", "statement": "transform('rectangle', ...) equals (1/sigma) times the integral of exp(-i G.r) over the rectangle, up to an explicit error bound where the small-argument series replaces the closed form; opposite G give conjugate values and G = 0 gives the filling fraction.", "quantifier": "all rectangles and real G", "why_tests_cant": "Continuum of G including the switch-over threshold.", "anchors": ["khepri/fourier.py:transform_rectangle", "khepri/fourier.py:fexpz", "khepri/fourier.py:transform"]}
{"id": "C43", "title": "T-matrix to S-matrix conversion respects composition", "statement": "For the transfer-matrix formulation, matrix_s(T) relates the same amplitudes as T, and multS(matrix_s(T1), matrix_s(T2)) = matrix_s(T1 @ T2) whenever both sides exist; multS is associative.", "quantifier": "all sizes and transfer matrices", "why_tests_cant": "Algebraic law over all matrices.", "anchors": ["khepri/tmat/matrices.py:matrix_s", "khepri/tmat/matrices.py:multS", "khepri/tmat/scattering.py:LayerMatrix.__matmul__"]}
{"id": "C44", "title": "Polarisation basis change is invertible and a matched interface is transparent", "statement": "lattice.U is the exact inverse of lattice.Vi (real Bloch vector, non-grazing orders, eps neither 0 nor a negative float, for which numpy's square root gives nan), so scattering_interface with equal media is the do-nothing S-matrix and cascading with it leaves any S unchanged.", "quantifier": "all lattices, wavelengths, Bloch vectors, permittivities", "why_tests_cant": "4x4 block identity for every order and every parameter.", "anchors": ["khepri/tmat/matrices.py:matrix_u", "khepri/tmat/matrices.py:matrix_v", "khepri/tmat/lattice.py:CartesianLattice.U", "khepri/tmat/lattice.py:CartesianLattice.Vi", "khepri/tmat/scattering.py:scattering_interface", "khepri/tmat/tools.py:compute_eta", "khepri/tmat/tools.py:compute_mu"]}
{"id": "C45", "title": "Slicing power does not change a T-matrix layer and depths add", "statement": "scattering_matrix(..., depth, slicing_pow) returns the same S for every slicing_pow for which it succeeds, namely that of U expm(-A depth) Vi, and cascading two layers of the same pattern adds their depths.", "quantifier": "all slicing powers, depths, patterns", "why_tests_cant": "Induction on the doubling loop.", "anchors": ["khepri/tmat/scattering.py:scattering_matrix", "khepri/tmat/scattering.py:scattering_matrix_islands", "khepri/tmat/matrices.py:matrix_s", "khepri/tmat/matrices.py:multS"]}
{"id": "C46", "title": "T-matrix order numbering is coherent and in bounds", "statement": "For square pw (and one row of orders along b1), CartesianLattice.gx/gy have shape pw, the vector position of an order (Fortran order) agrees between coords_from_index, gx.T.flatten(), incident() and matrix_a, and matrix_a only reads Fourier coefficients inside the grid, at G_i - G_j.", "quantifier": "all plane-wave counts, odd and even", "why_tests_cant": "Index arithmetic for every size; negative indices would wrap silently.", "anchors": ["khepri/tmat/tools.py:grid_size", "khepri/tmat/tools.py:grid_center", "khepri/tmat/tools.py:coords_from_index", "khepri/tmat/tools.py:incident", "khepri/tmat/lattice.py:gvectors", "khepri/tmat/lattice.py:CartesianLattice.gx", "khepri/tmat/matrices.py:matrix_a"]}
{"id": "C47", "title": "CartesianLattice provides one g-vector per requested plane wave", "statement": "For every accepted pw, lattice.gx and lattice.gy have shape pw.", "quantifier": "all pairs pw of equal parity", "why_tests_cant": "Fails only for non-square pw, which no test uses.", "anchors": ["khepri/tmat/lattice.py:CartesianLattice.gx", "khepri/tmat/lattice.py:CartesianLattice.gy"]}
{"id": "C48", "title": "The two system-matrix builders agree", "statement": "matrix_a and matrix_a_old return the same matrix, or fail alike, for the same arguments (indices numbering the orders of gx and gy, as all callers build them).", "quantifier": "all sizes, lattices and Fourier tables", "why_tests_cant": "Entry-wise equality for all inputs.", "anchors": ["khepri/tmat/matrices.py:matrix_a", "khepri/tmat/matrices.py:matrix_a_old"]}
{"id": "C49", "title": "Normal wave numbers are on the outgoing branch", "statement": "compute_kz returns kz with kz^2 = eps k0^2 - |k+G|^2, Im kz >= 0, and Re kz >= 0 when Im kz = 0.", "quantifier": "all real wave vectors and complex eps", "why_tests_cant": "Branch choice on the whole complex plane.", "anchors": ["khepri/tmat/tools.py:compute_kz"]}
{"id": "C50", "title": "T-matrix fluxes are normalised, non-negative and use the given Bloch vector", "statement": "compute_fluxes returns R,T >= 0 with R+T+A = 1, invariant under scaling of the excitation, computed with the z-wave-numbers of the kp passed in.", "quantifier": "all lattices, amplitudes, kp", "why_tests_cant": "The kp argument's effect is invisible at normal incidence, which is all tests use.", "anchors": ["khepri/tmat/tools.py:compute_fluxes", "khepri/tmat/tools.py:compute_currents"]}
{"id": "C51", "title": "The T-matrix formulation's scattering_identity is neutral", "statement": "Cascading khepri.tmat.scattering.scattering_identity(pw) with any S by multS returns S.", "quantifier": "all S-matrices", "why_tests_cant": "Universal over matrices.", "anchors": ["khepri/tmat/scattering.py:scattering_identity", "khepri/tmat/matrices.py:multS"]}
{"id": "C52", "title": "Band-structure eigenproblem finds exactly the Bloch modes", "statement": "scattering_splitlr(S) returns (Sl,Sr) such that Sl x = w Sr x holds iff the amplitudes x on one side of the cell become w x on the other side according to S; when S = matrix_s(T) with T invertible these are the eigenpairs of the inverse transfer matrix; scattering_det(S) = det S.", "quantifier": "all S-matrices, vectors and multipliers", "why_tests_cant": "Equivalence over all matrices.", "anchors": ["khepri/eigentricks.py:scattering_splitlr", "khepri/eigentricks.py:scattering_det", "khepri/eigentricks.py:scattering_eigenvalues"]}
{"id": "C53", "title": "ez project files: nested, repeated stacks mean their flattened layer sequence", "statement": "For an acyclic project, the layers computed are those of the device's flattened sequence, once each; the S-matrix of the device (repeats >= 1) is that of the flattened sequence however it is grouped: it relates amplitudes exactly when fields obeying Maxwell's equations in every layer of the sequence, continuous from each to the next, join them; stacking fails only if a cascade is singular; the drawing is that sequence from the bottom up, as high as the depths add up to.", "quantifier": "all stacking dictionaries, nesting depths and repeat counts", "why_tests_cant": "Structural induction over nested configurations.", "anchors": ["khepri/ez.py:compute_spectrum.gather_s", "khepri/ez.py:compute_spectrum.stack_s", "khepri/ez.py:plot_layer"]}
{"id": "C54", "title": "Block and dense layouts are inverse", "statement": "block2dense(block_split(S)) = S for every square S of even size, and block_split(block2dense(B)) = B for 2x2 block arrays of equal square blocks.", "quantifier": "all sizes", "why_tests_cant": "Index arithmetic for all sizes.", "anchors": ["khepri/misc.py:block_split", "khepri/tools.py:block2dense"]}
{"id": "C55", "title": "Brillouin-zone paths and grids", "statement": "bz_path returns, segment by segment and in order, the requested number of equally spaced samples of the segment, its first point included and its last one left to the next segment (so the very last point of the path is not visited); G, X, M stand for 0, 0.99 pi/a along y and 0.99 pi/a along both axes. gen_bzi_grid returns the midpoints of shape[0] x shape[1] equal cells of the zone: distinct, inside the zone, symmetric about Gamma; sums over it of exp(i k.R) vanish for every lattice vector R whose indices are not multiples of the shape.", "quantifier": "all point lists, resolutions, reciprocal vectors and grid shapes", "why_tests_cant": "All lengths, shapes and lattice vectors.", "anchors": ["khepri/tmat/lattice.py:CartesianLattice.bz_path", "khepri/beams.py:gen_bzi_grid"]}
{"id": "C56", "title": "Beam rotation is a rigid rotation onto the requested direction", "statement": "beams.rotation_matrix(theta, phi, psi) is orthogonal with determinant 1 and sends the z axis to (sin theta cos phi, sin theta sin phi, cos theta) for every psi, so rotated beams keep their amplitude and stay transverse.", "quantifier": "all angles", "why_tests_cant": "Trigonometric identity for all real angles.", "anchors": ["khepri/beams.py:rotation_matrix", "khepri/beams.py:shifted_rotated_fields"]}
{"id": "C57", "title": "Parallel Fourier sums are schedule-independent and exact", "statement": "dft and slow_dft compute the normalised sum of f exp(-i k.r) exactly, whatever the order in which the parallel iterations run and however they interleave; dft undoes idft when the wave vectors are those of the grid.", "quantifier": "all array sizes, fields, wave vectors, schedules", "why_tests_cant": "Quantifies over thread schedules.", "anchors": ["khepri/fourier.py:dft", "khepri/fourier.py:slow_dft", "khepri/fourier.py:idft"]}
{"id": "C58", "title": "Real-space fields obey Maxwell's equations", "statement": "Inside a uniform medium the six real-space components returned by fields_coords_xy/fields_volume satisfy curl E = k0 H and curl H = k0 eps E (H scaled as the code does), so transverse and longitudinal components belong to the same field.", "quantifier": "all solved devices, incident fields and points where fields were requested", "why_tests_cant": "Differential equations at every point; relative phase of longitudinal components is invisible at normal incidence and in intensity plots.", "anchors": ["khepri/crystal.py:Crystal.fields_coords_xy", "khepri/crystal.py:Crystal._fourier_fields", "khepri/fields.py:longitudinal_fields", "khepri/fourier.py:idft"]}
{"id": "C59", "title": "Analytical transform of a disc", "statement": "transform_disc(x, y, r, G, S) is the Fourier integral of exp(-iG.r) over the disc divided by S (r > 0, G = 0 or outside the square |Gx|, |Gy| <= 1e-8 that np.isclose takes for 0), and the filling fraction pi r^2/S at G = 0.", "quantifier": "all centres, radii, wave vectors and cell areas", "why_tests_cant": "An integral over a disc for every G; a wrong phase sign or a swapped coordinate is invisible for centred discs.", "anchors": ["khepri/fourier.py:transform_disc", "khepri/fourier.py:transform"]}
{"id": "C60", "title": "T-matrix S-matrices relate exactly the fields Maxwell's equations join", "statement": "scattering_matrix_islands/scattering_matrix (square pw or one row of orders along b1, real Bloch vector) return the S-matrix that relates amplitudes on the two faces exactly when one field obeying Maxwell's equations of the patterned layer joins them; scattering_interface relates those with continuous tangential fields; amplitudes going as exp(+-i kz z) are plane waves of their medium; a layer of the incidence medium multiplies every order by exp(i kz depth) and reflects nothing.", "quantifier": "all lattices, patterns, depths, slicings, wavelengths, real Bloch vectors and amplitudes", "why_tests_cant": "Equivalence with a differential equation for every amplitude vector; a wrong sign in one block of A is invisible for uniform layers at normal incidence.", "anchors": ["khepri/tmat/scattering.py:scattering_matrix_islands", "khepri/tmat/scattering.py:scattering_matrix", "khepri/tmat/scattering.py:scattering_interface", "khepri/tmat/matrices.py:matrix_a", "khepri/tmat/matrices.py:matrix_u", "khepri/tmat/matrices.py:matrix_v"]}
{"id": "C61", "title": "Lossless T-matrix devices conserve energy", "statement": "Layers of real permittivities, interfaces and cascades of them carry as much power out as in; at normal incidence between real positive media compute_fluxes returns R + T = 1 and A = 0; such layers never fail when every order propagates in the incidence medium.", "quantifier": "all lattices, patterns, depths, slicings, number of layers, excitations in propagating orders", "why_tests_cant": "An inequality-free conservation law over every device; tests sample a few devices within tolerances.", "anchors": ["khepri/tmat/scattering.py:scattering_matrix_islands", "khepri/tmat/scattering.py:scattering_interface", "khepri/tmat/matrices.py:multS", "khepri/tmat/tools.py:compute_fluxes", "khepri/tmat/tools.py:compute_currents"]}
{"id": "C62", "title": "What the angles of a source mean", "statement": "compute_kplanar(eps, wl, theta, phi) (and so set_source) is the in-plane part of the wave vector of length sqrt(eps) 2 pi/wl that makes theta degrees with the z axis and whose in-plane part makes phi degrees with the x axis; the opposite theta, or phi + 180, gives the opposite vector. set_source refuses only a null wavelength; a wave vector given explicitly takes precedence over the angles; what it is given is what is used.", "quantifier": "all non-negative permittivities, wavelengths and angles", "why_tests_cant": "Trigonometric identity over all reals; radians for degrees, or x for y, is invisible at normal incidence.", "anchors": ["khepri/tools.py:compute_kplanar", "khepri/crystal.py:Crystal.set_source"]}
{"id": "C63", "title": "pixmap_or_uniform never changes the result", "statement": "Layer.pixmap_or_uniform makes a uniform layer of the common value exactly when all pixels are equal, the pixmap layer otherwise, and refuses only empty pixmaps; its S-matrix is that of Layer.pixmap on the same pixmap.", "quantifier": "all pixmaps, lattices, depths, incidences", "why_tests_cant": "A test on part of the pixels is right for most pixmaps; the two solvers share no code.", "anchors": ["khepri/layer.py:Layer.pixmap_or_uniform", "khepri/crystal.py:Crystal.add_pixmap_or_uniform"]}
{"id": "C64", "title": "band_structure returns the propagating Bloch modes", "statement": "band_structure(S) returns the multipliers of the Bloch modes of modulus 1 of the crystal whose unit cell scatters as S.", "quantifier": "all S-matrices whose pencil is regular", "why_tests_cant": "The filter on_shell is applied to real parts: all modes but those at the zone centre are lost, which a test at one frequency does not show.", "anchors": ["khepri/eigentricks.py:band_structure", "khepri/eigentricks.py:on_shell", "khepri/eigentricks.py:scattering_eigenvalues"]}
{"id": "C65", "title": "split cuts an array in tiles", "statement": "misc.split(a, nrows, ncols) returns the nrows x ncols tiles of a, row of tiles by row of tiles.", "quantifier": "all arrays and tile shapes that divide them", "why_tests_cant": "Right for every square array, wrong for the others.", "anchors": ["khepri/misc.py:split"]}
{"id": "C66", "title": "idft2 evaluates a Fourier series", "statement": "idft2(F, kx, ky, x, y) is the sum of F exp(i k.r) at the points (x, y) it is given, however the orders are shared between threads.", "quantifier": "all arrays, wave vectors, grids and ways to share the orders", "why_tests_cant": "Quantifies over thread schedules; the step error is smaller than any tolerance on fine grids.", "anchors": ["khepri/fourier.py:idft2"]}
{"id": "C67", "title": "ez projects: islands are solved where they are drawn", "statement": "For every disc and rectangle of a project, the shape handed to the solver is the shape drawn, in units of the lattice size.", "quantifier": "all projects, centres, radii and sizes", "why_tests_cant": "Right for discs and for rectangles at the origin, as in the shipped example; wrong everywhere else.", "anchors": ["khepri/ez.py:load_layers", "khepri/ez.py:compute_spectrum", "khepri/ez.py:plot_layer"]}
{"id": "C68", "title": "Paraxial beams are beams of the medium they are asked in", "statement": "The Gaussian and Laguerre-Gauss beams obey the paraxial wave equation and the impedance of the medium er they are built for; order (0,0) is the Gaussian beam; the phase winds l times about the axis; the power through a plane does not depend on the plane, and the amplitude at the waist falls to 1/e at distance w0.", "quantifier": "all wavelengths, waists, permittivities, orders p and l, points", "why_tests_cant": "A partial differential equation at every point and an integral over a plane; every test in vacuum passes.", "anchors": ["khepri/beams.py:_paraxial_gaussian_field_fn", "khepri/beams.py:_paraxial_laguerre_gaussian_field_fn"]}
{"id": "C69", "title": "Fields in a volume, and the power they carry", "statement": "fields_volume(x, y, z) holds plane by plane and point by point what fields_coords_xy returns, and fails only where that does; the average over the unit cell of the z component of the real part of poynting_vector(E, H) is the power through the plane.", "quantifier": "all solved crystals, points, depths, incident fields, wave vectors", "why_tests_cant": "An integral over the cell of a sum over all orders; every reshape and axis convention is right for some shapes.", "anchors": ["khepri/crystal.py:Crystal.fields_volume", "khepri/crystal.py:Crystal.fields_coords_xy", "khepri/misc.py:poynting_vector"]}
{"id": "C70", "title": "Stacks of uniform layers follow the characteristic-matrix formulas", "statement": "For a device made of uniform layers only, each order and each polarisation scatters on its own: the reflected and transmitted amplitudes are those of the product of the layers' characteristic matrices, and poynting_flux_end returns |r|^2 and Re(eta_t)/Re(eta_0)|t|^2 averaged over the polarisations of the source; for a bare interface at normal incidence these are Fresnel's formulas.", "quantifier": "all stacks (any number of layers, complex permittivities, any depths), outer media, wavelengths, real in-plane wave vectors, orders and polarisations; no layer at grazing", "why_tests_cant": "Tests compare a few stacks to tabulated values; a sign or phase error in one medium can cancel for symmetric or quarter-wave stacks.", "anchors": ["khepri/crystal.py:Crystal.solve", "khepri/crystal.py:Crystal.poynting_flux_end", "khepri/crystal.py:Multilayer", "khepri/layer.py:Layer.uniform", "khepri/alternative.py:incident"]}
{"id": "C71", "title": "Crystals are what the calls that build them say", "statement": "Crystal(pw, lattice, ...) succeeds exactly for the documented lattices and odd orders; the named lattices have the symmetry and cell of their name; from_expansion keeps the expansion and the other arguments it is given; after any sequence of add_* calls each name stands for the last layer added under it; source_defined and solved say whether set_source and solve were called; set_device accepts every stack of added names and reports unknown ones; Multilayer followed by add_layer_uniform, set_device, set_source, solve and poynting_flux_end gives the textbook reflectance and transmittance of the stack described.", "quantifier": "all constructor arguments, all sequences of add_* calls, all stacks of names and masks, all uniform stacks", "why_tests_cant": "Sequences of calls are unbounded; tests build a few crystals in the one usual order.", "anchors": ["khepri/crystal.py:Crystal.__init__", "khepri/crystal.py:Multilayer", "khepri/crystal.py:Crystal.add_layer_uniform", "khepri/crystal.py:Crystal.add_layer_pixmap", "khepri/crystal.py:Crystal.add_pixmap_or_uniform", "khepri/crystal.py:Crystal.add_layer_analytical", "khepri/crystal.py:Crystal.set_device"]}
{"id": "C72", "title": "Scale invariance", "statement": "A device enlarged s times (lattice, depths, islands; pixmaps cover the cell anyway) and solved at s times the wavelength, with the same angles or with kp divided by s, has the same S-matrix and the same reflected and transmitted power in every order.", "quantifier": "all s > 0, lattices, odd numbers of orders, stacks of uniform, pixmap and analytical layers, outer media, wavelengths, real in-plane wave vectors (0 or above the absolute cut-off 1e-8 at both scales), polarisations", "why_tests_cant": "Relates every pair of similar devices; a test at one unit of length cannot see a hidden dimensional constant.", "anchors": ["khepri/crystal.py:Crystal.solve", "khepri/crystal.py:Crystal.set_source", "khepri/crystal.py:Crystal.poynting_flux_end", "khepri/expansion.py:Expansion.__init__", "khepri/fourier.py:transform_rectangle", "khepri/layer.py:Layer.solve"]}
{"id": "C73", "title": "Rotating the device together with its source changes nothing but the orientation", "statement": "With the expansion rotated by an angle and the in-plane wave vector rotated with it (phi increased by that angle), the scattered fields are the original ones rotated, and every order carries the same power; at normal incidence this holds when the (te, tm) components, which are then along x and y, are rotated as well.", "quantifier": "all angles, expansions, stacks, outer media, wavelengths, real in-plane wave vectors, polarisations", "why_tests_cant": "Relates every pair of rotated devices; tests use lattices aligned with the axes, where x and y errors can hide.", "anchors": ["khepri/expansion.py:Expansion.rotate", "khepri/crystal.py:Crystal.solve", "khepri/crystal.py:Crystal.set_source", "khepri/crystal.py:Crystal.poynting_flux_end", "khepri/alternative.py:incident"]}
{"id": "C74", "title": "The origin of the pattern does not matter", "statement": "When the pixmaps of all layers are rolled by the same fraction of the periods, every amplitude changes by the phase of its order for that shift, and every order carries the same power. Moving the islands of all analytical layers by the same vector, anywhere and by any amount, also leaves the power of every order unchanged.", "quantifier": "all shifts that are whole numbers of pixels in every layer, all stacks of uniform and pixmap layers, outer media, wavelengths, real in-plane wave vectors, polarisations; for islands, all vectors, all stacks of uniform and analytical layers, as many orders along one axis as along the other or a single one along one of them", "why_tests_cant": "Relates all shifted versions of a device; a test with symmetric patterns cannot see a phase or index error in the convolution matrices.", "anchors": ["khepri/layer.py:Layer.pixmap", "khepri/crystal.py:Crystal.add_layer_pixmap", "khepri/crystal.py:Crystal.solve", "khepri/crystal.py:Crystal.poynting_flux_end"]}
{"id": "C75", "title": "Reciprocity of reflection and transmission", "statement": "Whatever the patterns of the layers and whether they absorb or amplify, two calculations on a device at opposite in-plane wave vectors obey Lorentz's reciprocity theorem: the form E' x H - E x H' of the two fields is the same in front of the device and behind it. Consequently the specular reflectance reported for unpolarised light (sum over te and tm) is the same at opposite directions of incidence, and the specular transmittance for unpolarised light is the same through the device and, at the opposite direction, through the device turned over (layers in the opposite order, outer media exchanged).", "quantifier": "every expansion that can be built (rotated and twisted sums included), every stack of layers with any description and depth, every pair of real outer permittivities, every wavelength and real in-plane wave vector (outside the polarisation cut-off window), every set of waves sent from both sides", "why_tests_cant": "A test compares a few devices at a few angles; the claim ranges over all patterns, including those without any symmetry for which no other reference is available.", "anchors": ["khepri/crystal.py:Crystal.solve", "khepri/crystal.py:Crystal.poynting_flux_end", "khepri/alternative.py:build_scatmat", "khepri/alternative.py:redheffer_product", "khepri/layer.py:Layer.solve", "khepri/alternative.py:incident"]}
{"id": "C76", "title": "The matrix interface and the crystal interface agree", "statement": "Computing a device by hand, with scattering_uniform_layer, scattering_structured_layer, scattering_reflection, scattering_transmission and redheffer_product, gives the very S-matrix Crystal.solve computes for the same layers, whatever the bracketing of the products; the stand-alone functions give the matrices and the exceptions of Layer.solve; between half spaces of vacuum the outer matrices may be left out, and poynting_fluxes then returns, order by order, what poynting_flux_end returns.", "quantifier": "all layers, stacks, bracketings, sources, half spaces", "why_tests_cant": "Two code paths with no code in common but redheffer_product; the agreement in vacuum needs the outer matrices to be neutral, which no finite set of stacks shows.", "anchors": ["khepri/alternative.py:scattering_uniform_layer", "khepri/alternative.py:scattering_structured_layer", "khepri/alternative.py:redheffer_product", "khepri/alternative.py:scattering_reflection", "khepri/alternative.py:scattering_transmission", "khepri/alternative.py:poynting_fluxes", "khepri/layer.py:Layer.solve", "khepri/crystal.py:Crystal.solve", "khepri/crystal.py:Crystal.poynting_flux_end"]}
{"id": "C77", "title": "make_woodpile builds a woodpile", "statement": "make_woodpile(w, eps, shift, height, pw, resolution) succeeds for every permittivity of the rods, and returns a crystal on the square lattice of pitch 1 in vacuum, with the device of four layers of the given height: rods along x, rods along y, and the same two rows moved by the shift, so that with a shift of half a period A, B, C, D moved by half a period is C, D, A, B.", "quantifier": "all rods, shifts, heights, orders, resolutions", "why_tests_cant": "Lossy rods are refused, and whether the third row is the first one moved depends on a rounding of the width in pixels: half of the widths, at any resolution, give rods two pixels wider in the third and fourth layers.", "anchors": ["khepri/factory.py:make_woodpile", "khepri/draw.py:Drawing.rectangle", "khepri/crystal.py:Crystal.add_layer_pixmap", "khepri/crystal.py:Crystal.set_device"]}
{"id": "C78", "title": "Amplitudes are recovered from sampled fields", "statement": "amplitudes_from_fields, given on a grid of cells the transverse fields of a superposition of the plane waves of an expansion with a Bloch vector, returns the amplitudes, for Ex, Ey, Hx, Hy and each order, whatever the number of cells, the lattice, the origin of the grid and the Bloch vector; it reads inside its arrays and its result depends on its arguments only.", "quantifier": "all lattices, expansions, Bloch vectors, amplitudes, origins, numbers of cells and of pixels per cell not less than the orders", "why_tests_cant": "The normalisation divides by the number of pixels along one side instead of the number of pixels, invisible where only ratios are looked at; cells that are not square silently return uninitialised memory.", "anchors": ["khepri/beams.py:amplitudes_from_fields", "khepri/fourier.py:slow_dft"]}
{"id": "C79", "title": "Windows, arrows and grids of the plotting helpers", "statement": "strided_convolution(image, weight, stride) returns the weighted sums over all the windows that fit, one every stride elements, reads no memory outside of the image and does not depend on how the image is stored; quiver draws, at the mean position of each window, the mean of the vectors (VX, VY); coords returns evenly spaced grids that include both bounds, x along columns and y along rows.", "quantifier": "all images (in any memory layout), filters, strides, resolutions", "why_tests_cant": "as_strided checks nothing: memory safety is a statement about all shapes and strides, and a transposed or sliced view has strides no test on fresh arrays has.", "anchors": ["khepri/misc.py:strided_convolution", "khepri/misc.py:quiver", "khepri/misc.py:coords"]}
{"id": "C80", "title": "Real-space synthesis through the FFT or by direct summation gives the field", "statement": "fourier2real_fft(ffield, a, target_resolution, kp) returns the values of the Bloch field with amplitudes ffield at evenly spaced points of the cell, for every number of orders and resolution; fourier2direct2(ffield, kx, ky, a, target_resolution, extent) returns the sum of the plane waves at the points of the grid, ffield having the shape of kx and ky.", "quantifier": "all arrays of amplitudes, cell sizes, resolutions, Bloch vectors and extents", "why_tests_cant": "Normalisation, sampling points and padding parity depend on array sizes; a plot looks the same up to a factor, and square symmetric examples do not see a transposition.", "anchors": ["khepri/fields.py:fourier2real_fft", "khepri/tmat/fields.py:fourier2direct2"]}
{"id": "C81", "title": "Polarisation names mean the same directions at every angle and in both interfaces", "statement": "te (crystal interface) and s_pol (T-matrix interface) excite an electric field perpendicular to the plane of incidence, tm and p_pol one whose magnetic field is; at normal incidence the directions are those of incidence along x, so the two interfaces excite the same field for the same names.", "quantifier": "all wave vectors, lattices, orders, media and amplitudes", "why_tests_cant": "A test at one angle fixes one direction; the change of convention at normal incidence only shows when angles tend to zero or when two interfaces are compared.", "anchors": ["khepri/alternative.py:incident", "khepri/tmat/tools.py:incident", "khepri/tmat/tools.py:compute_eta", "khepri/tmat/tools.py:compute_mu", "khepri/tmat/matrices.py:matrix_v"]}
{"id": "C82", "title": "Lattice accessors and unit conversions are coherent", "statement": "CartesianLattice.g_vectors() enumerates every order once and G_vectors() the centred grid that contains all their differences; kp_angle is the in-plane wave vector of the given angles in the incidence medium; restrict_radius_mask(radius) marks, in the numbering of the amplitudes, the orders shorter than radius; assigning gx or gy is read back and changes nothing else; eta_normal is eta at normal incidence; ev2fn and fn2ev are inverse of one another, and fn2ev is the energy in electronvolts of a photon of wavelength pitch (in micrometres) over f, up to the digits of its constants.", "quantifier": "all lattices, square grids, radii, assigned arrays, frequencies and pitches", "why_tests_cant": "Two numberings of the same orders coincide on symmetric lattices; a cached attribute is only stale after a particular sequence of calls.", "anchors": ["khepri/tmat/lattice.py:CartesianLattice.g_vectors", "khepri/tmat/lattice.py:CartesianLattice.G_vectors", "khepri/tmat/lattice.py:CartesianLattice.kp_angle", "khepri/tmat/lattice.py:CartesianLattice.restrict_radius_mask", "khepri/tmat/lattice.py:CartesianLattice.gx", "khepri/tmat/lattice.py:CartesianLattice.eta_normal", "khepri/constants.py:fn2ev", "khepri/constants.py:ev2fn"]}
{"id": "C83", "title": "Spectra of project files", "statement": "compute_spectrum returns one row per combination of phi, theta and frequency of the study (frequency fastest, both ends of each sweep included), with wavelength a/frequency; R, T and A are the powers, relative to the incident one, reflected, transmitted and absorbed by the fields that solve Maxwell's equations in the layers of the flattened device for the incident wave of the row; so A = 0 for the real permittivities a project can have. Changing the lattice constant changes the wavelength column only.", "quantifier": "all projects, devices, studies, angles and frequencies", "why_tests_cant": "A spectrum is compared with a reference at a few points; order of the rows, conservation of energy and independence of the unit of length concern all of them.", "anchors": ["khepri/ez.py:compute_spectrum", "khepri/ez.py:json_linspace", "khepri/tmat/tools.py:compute_fluxes", "khepri/tmat/tools.py:incident"]}
{"id": "C84", "title": "The interface of the T-matrix interface obeys Fresnel's formulas", "statement": "The S-matrix of scattering_interface between real positive permittivities exists unless an order grazes in the incidence medium, couples no two orders and no two polarisations, and its entries are Fresnel's amplitude coefficients from both sides, for s and p, for propagating and evanescent orders; at normal incidence R = ((nI-nE)/(nI+nE))^2, T = 4 nI nE/(nI+nE)^2, A = 0, whatever the polarisation.", "quantifier": "all lattices, orders, wavelengths, real in-plane wave vectors, pairs of real positive permittivities, polarisations", "why_tests_cant": "A test checks one pair of media at one angle; signs and square roots of the p coefficients agree at normal incidence and differ elsewhere.", "anchors": ["khepri/tmat/scattering.py:scattering_interface", "khepri/tmat/matrices.py:matrix_v", "khepri/tmat/matrices.py:matrix_u", "khepri/tmat/matrices.py:matrix_s", "khepri/tmat/tools.py:compute_fluxes"]}
{"id": "C85", "title": "Stacks of layers of two lattices obey Maxwell's equations over the joint orders", "statement": "Take two expansions built by the user, their sum, a crystal of that sum, and any stack of uniform layers and of layers of either expansion added with add_layer(name, layer, extended=True). After set_device, set_source and solve, the total matrix relates the amplitudes of the outer media exactly when there is a field over all pairs of orders that obeys Maxwell's equations in each layer, where a layer of one lattice couples two pairs of orders only when they have the same order of the other lattice, as it does alone; the field is continuous at interfaces and is made of plane waves outside. For all waves sent in from both sides there is exactly one such field. R + T = 1 when no layer has losses, and R + T <= 1 when layers absorb.", "quantifier": "all pairs of expansions of equal size with distinct identities, all stacks (any length and order, layers repeated or not), permittivity maps, real in-plane wave vectors outside the cut-off window of C17, wavelengths and polarisations for which solve returns", "why_tests_cant": "Twisted structures have no closed-form reference and their joint space is the square of the single one; a test compares a few truncated stacks with previous outputs and cannot tell a wrong coupling between joint orders from a truncation error.", "anchors": ["khepri/extension.py:ExtendedLayer.solve", "khepri/extension.py:ExtendedLayer.__init__", "khepri/crystal.py:Crystal.add_layer", "khepri/crystal.py:Crystal.solve", "khepri/crystal.py:Crystal.poynting_flux_end", "khepri/expansion.py:Expansion.__add__"]}
{"id": "C86", "title": "Fields inside stacks of layers of two lattices are those of the physical solution", "statement": "Take a crystal of the sum of two expansions and a stack as in C85. At every depth where fields were requested and no propagator is clamped, the Fourier components behind fields_coords_xy and fields_volume are the six components of the one field over the joint orders that obeys Maxwell's equations in every layer and both outer media, is continuous across the interfaces, and is lit by the given incident waves: Ex, Ey, Hx, Hy are its transverse components, Hz and Ez those that belong to them. The code returns the displacement instead of Ez in the layers added with extended=True, and has C34's defect after the last layer.", "quantifier": "all pairs of expansions, stacks with non-negative depths, permittivity maps, masks, real in-plane wave vectors, wavelengths and incident amplitudes for which solve returns, all depths", "why_tests_cant": "The field of a twisted stack has no closed-form reference; images of it look plausible whatever the normalisation of one component.", "anchors": ["khepri/crystal.py:Crystal._fourier_fields", "khepri/crystal.py:Crystal.locate_layer", "khepri/extension.py:ExtendedLayer.solve", "khepri/extension.py:extended_freespace", "khepri/fields.py:longitudinal_fields"]}
{"id": "C87", "title": "A device of one lattice gives the same powers in the joint space of two lattices", "statement": "When every layer of a crystal built on the sum of two expansions belongs to one of the two lattices (added with extended=True) or is uniform, the reflected and transmitted powers are those of a plain crystal of that lattice alone with the same outer media and the same source. Order by order: the pairs that combine an order of the lattice with the middle order of the other lattice carry the power of that order, all other pairs carry none. This holds for the first lattice and for the second one.", "quantifier": "all pairs of lattices a user can build, numbers of orders, layers of any pattern, depths, wavelengths, polarisations, in-plane wave vectors, masks and layer names", "why_tests_cant": "A test compares two runs on one pair of lattices and one pattern; a wrong numbering of the pairs or a wrong shift of the base layer can be invisible for symmetric patterns, uniform layers or normal incidence.", "anchors": ["khepri/extension.py:ExtendedLayer.solve", "khepri/crystal.py:Crystal.add_layer", "khepri/crystal.py:Crystal.solve", "khepri/crystal.py:Crystal.poynting_flux_end", "khepri/expansion.py:Expansion.__add__"]}
{"id": "C88", "title": "A grating gives the same powers whatever the orders and the period kept along its lines", "statement": "For a stack of uniform layers and of pixmaps that only depend on the first axis, the calculation with pw = (P, 1) and the calculation with pw = (P, Q), a lattice with any second vector along the lines and any slide of the first vector along them, and pixmaps with any (sufficient) number of columns, give the same R and T; in the second calculation the orders (m, 0) carry the powers of the orders m of the first one and all the other orders carry none.", "quantifier": "all odd P and Q, lattices, second vectors, stacks of line patterns and uniform layers of any depths, half spaces, wavelengths, sources (given by angles or by the wave vector) and polarisations for which both runs succeed", "why_tests_cant": "a unit test compares one grating with one pair of settings, to a tolerance; the claim is an exact identity over all patterns, numbers of orders and stacks", "anchors": ["khepri/expansion.py:Expansion", "khepri/tools.py:convolution_matrix", "khepri/layer.py:Layer.solve", "khepri/crystal.py:Crystal.solve", "khepri/crystal.py:Crystal.poynting_flux_end"]}
{"id": "C89", "title": "Turned devices and mirror images give the same powers", "statement": "Turning or mirroring a device of pixmaps and uniform layers together with its source leaves R, T and the power of every order unchanged, the orders being exchanged as their directions are: half a turn (pixmaps flipped along both axes, opposite in-plane wave vector, orders (m, n) and (-m, -n) exchanged), a mirror of a rectangular lattice (one axis flipped, one component of the wave vector and the tm amplitude reversed), lattice vectors listed in the other order with the pixmaps transposed and pw exchanged. In particular a device with a symmetric pattern treats kp and -kp alike.", "quantifier": "all lattices, odd pw, isometries of the plane, signs and orders of the lattice vectors, pixmaps (of a common size along the flipped axes) and uniform layers of any depths, half spaces, wavelengths, wave vectors (zero, or not below the 1e-8 threshold) and polarisations", "why_tests_cant": "a symmetry is a relation between two infinite families of calculations; tests sample a few devices at a tolerance", "anchors": ["khepri/expansion.py:Expansion", "khepri/tools.py:convolution_matrix", "khepri/layer.py:Layer.solve", "khepri/crystal.py:Crystal.set_source", "khepri/alternative.py:incident", "khepri/crystal.py:Crystal.poynting_flux_end"]}
{"id": "C90", "title": "How the powers depend on the polarisation of the source", "statement": "For a device built and solved at a given in-plane wave vector, the sum of the powers (R, T and every order) over two orthogonal polarisations (te, tm) and (te', tm') is the same for every such pair, so 'unpolarised' is well defined. A device with a mirror plane (patterns that np.flip or a transposition leaves as they are, on a lattice the mirror keeps), lit in that plane, does not mix the polarisations: R and T are the means of those for (1,0) and (0,1) weighted by |te|^2 and |tm|^2, and so are the powers of the orders summed over the pairs the mirror exchanges. A grating with a single order along its lines, lit perpendicularly to them, does not mix them in any order, whatever the patterns.", "quantifier": "all lattices, odd numbers of orders, wavelengths, stacks, pixmaps, half spaces, wave vectors and complex polarisations for which the calculations complete", "why_tests_cant": "the interference of the two polarisations vanishes by symmetry of the whole calculation, for every device; tests look at one device and usually at one polarisation", "anchors": ["khepri/crystal.py:Crystal.set_source", "khepri/crystal.py:Crystal.poynting_flux_end", "khepri/alternative.py:incident", "khepri/layer.py:Layer.fourier_transform"]}
{"id": "C91", "title": "Stacks of uniform layers in the T-matrix interface: textbook coefficients, and the same powers as the crystal interface", "statement": "A device made in the T-matrix interface of layers without islands (or with islands that do not differ from their host), each cut in any number of slices, cascaded by multS in any grouping and closed by scattering_interface, acts on the s and p amplitudes of each order separately and multiplies them by the reflection and transmission coefficients of the stack given by the characteristic matrices of optics; at normal incidence compute_fluxes reports |r|^2, n_E/n_I |t|^2 and the rest. For the same layers, wavelength and half spaces it reports the same R and T as the crystal interface, whatever the lattices, the numbers of orders and the polarisations.", "quantifier": "all lattices and square (or single-row) numbers of orders, lists of layers, complex permittivities, depths, slicings, groupings, real positive outer permittivities, wavelengths and incident amplitudes", "why_tests_cant": "two independent implementations with different unknowns and different time conventions have to agree for every stack; a test compares them for one stack, and only a lossy one can show the convention", "anchors": ["khepri/tmat/scattering.py:scattering_matrix_islands", "khepri/tmat/scattering.py:scattering_interface", "khepri/tmat/matrices.py:multS", "khepri/tmat/tools.py:compute_fluxes", "khepri/alternative.py:solve_uniform_layer", "khepri/crystal.py:Crystal.poynting_flux_end"]}
{"id": "C92", "title": "Transform of a pixmap", "statement": "transform('pixmap', (map,), Gx, Gy, sigma) is, like the transforms of the other shapes, the Fourier integral of the pattern over the cell divided by the area sigma of the cell, at the orders of the grid (position k standing for the orders k, k - n, ...).", "quantifier": "all maps, sizes and areas", "why_tests_cant": "a factor that is 1 for the cell one happens to test with; a test with unit area and one pixel passes", "anchors": ["khepri/fourier.py:transform_pixmap", "khepri/fourier.py:transform"]}
{"id": "C93", "title": "Equivalent stacks of layers of two lattices give the same powers", "statement": "For a crystal of the sum of two expansions with layers of both (C85): (a) displacing all the patterns of one lattice relative to those of the other, by any whole numbers of pixels or, for islands, by any vector, changes no power; (b) writing the sum of the expansions in the other order gives the same R and T, and exchanges the numbers in the labels of the orders; (c) turning both lattices by the same angle with rotate(), and the source with them, changes no power; (d) turning or mirroring the whole device, with the vectors of each lattice listed with any sign and the pixmaps flipped accordingly, exchanges the orders as their directions; (e) scaling both lattices, the depths, the wavelength and the source together changes no power.", "quantifier": "all pairs of lattices, odd numbers of orders, stacks of uniform, pixmap and (in a, c, e) analytical layers of both lattices, displacements of either lattice, angles, isometries, factors, wavelengths, half spaces, wave vectors and polarisations for which both calculations succeed", "why_tests_cant": "a twisted stack has hundreds of coupled orders and no closed form to compare with; a test can sample a few displacements or angles to a tolerance, and cannot tell a lost coupling from a small one", "anchors": ["khepri/expansion.py:Expansion.__add__", "khepri/expansion.py:Expansion.rotate", "khepri/extension.py:ExtendedLayer.solve", "khepri/crystal.py:Crystal.add_layer", "khepri/crystal.py:Crystal.solve", "khepri/crystal.py:Crystal.poynting_flux_end"]}
{"id": "C94", "title": "Absorbing devices can always be solved, and lose power", "statement": "Interfaces with media of positive permittivity can be solved. A layer of positive depth that absorbs everywhere (negative imaginary part: uniform, every pixel of a pixmap, or the permittivity matrix of islands) can be solved. A device of such layers between media of positive permittivity (or of no layer at all) is solved without meeting a singular matrix, in its layers or in its cascade, and without division by zero; the powers are then available for every source that is not dark and whose wave propagates. Reflected and transmitted powers add up to strictly less than 1 as soon as one layer of positive depth absorbs everywhere and no layer amplifies.", "quantifier": "all stacks of layers, depths, permittivities, lattices, truncations, real wave vectors at which no order is exactly at grazing incidence in vacuum or in the outer media, polarisations, masks, and all libraries whose eigensolver is right and returns independent eigenvectors on the layers that are not uniform", "why_tests_cant": "whether a linear system is singular depends on the whole stack; tests only see devices that were tried, and a device that raises LinAlgError at one wavelength looks fine at the others", "anchors": ["khepri/crystal.py:Crystal.solve", "khepri/crystal.py:Crystal.poynting_flux_end", "khepri/layer.py:Layer.solve", "khepri/alternative.py:redheffer_product", "khepri/alternative.py:build_scatmat", "khepri/alternative.py:scattering_reflection", "khepri/alternative.py:scattering_transmission"]}
{"id": "C95", "title": "Absorbing stacks of layers of two lattices can always be solved, and lose power", "statement": "A stack of absorbing layers of two lattices (layers of either lattice added with extended=True, and uniform layers), between media of positive permittivity, is solved without meeting a singular matrix: neither at any of the shifted wave vectors a layer is solved at, nor in the cascade in the joint space. The powers are then available for every source that is not dark and whose wave propagates. Reflected and transmitted powers add up to strictly less than 1 as soon as one layer of positive depth, of either lattice, absorbs everywhere and no layer amplifies.", "quantifier": "all pairs of lattices with the same truncation, all stacks of layers of either lattice and uniform layers, depths, permittivities, real wave vectors at which no order of the joint space is exactly at grazing incidence in vacuum or in the outer media, polarisations, masks, and all libraries whose eigensolver is right and returns independent eigenvectors on the layers that are not uniform at each shifted wave vector", "why_tests_cant": "a twisted stack solves each layer once per order of the other lattice and cascades matrices of squared size; a test sees one pair of lattices at one wavelength, and a singular block at another wave vector raises only there", "anchors": ["khepri/extension.py:ExtendedLayer.solve", "khepri/crystal.py:Crystal.solve", "khepri/crystal.py:Crystal.add_layer", "khepri/crystal.py:Crystal.poynting_flux_end", "khepri/alternative.py:redheffer_product", "khepri/alternative.py:build_scatmat"]}
{"id": "C96", "title": "Stacks without gain can be solved", "statement": "A device of layers without gain (Im eps <= 0, non-negative depth), lossless dielectric multilayers included, between media of positive permittivity in which every order propagates, can be solved: solve returns and does not meet a singular matrix.", "quantifier": "all stacks of layers without gain, outer permittivities, wavelengths and real in-plane wave vectors at which no order is exactly grazing; all iteration orders of the layers", "why_tests_cant": "Singular matrices occur on isolated curves in thickness, angle and wavelength that sampled tests miss; that the cascade is regular for every stack needs an energy argument, and the failing cases are guided modes of single layers in vacuum which a test finds only by aiming at them.", "anchors": ["khepri/crystal.py:Crystal.solve", "khepri/alternative.py:build_scatmat", "khepri/alternative.py:redheffer_product", "khepri/layer.py:stack_layers", "khepri/alternative.py:solve_uniform_layer"]}
{"id": "C97", "title": "Layers of islands inherit the losses of their media", "statement": "A layer from add_layer_analytical whose islands lie without overlap in one cell does not amplify if neither host nor islands have gain; it absorbs every field if they all absorb; and its permittivity matrix can be inverted if all permittivities have positive real part. A device of such layers has R + T <= 1.", "quantifier": "all lattices, numbers of orders, lists of discs and rectangles laid out without overlap in a cell, host and island permittivities", "why_tests_cant": "Truncation to finitely many orders could create gain or a singular matrix at some pattern, contrast or number of orders; no finite set of drawings excludes it, and the failing cases need unequal numbers of orders and lossy islands together.", "anchors": ["khepri/layer.py:Layer.solve", "khepri/fourier.py:transform", "khepri/fourier.py:combine_fourier_masks", "khepri/tools.py:convolution_matrix_fourier", "khepri/expansion.py:Expansion.g_vectors_expanded"]}
{"id": "C98", "title": "Stacks of layers of two lattices are reciprocal", "statement": "For a stack built with add_layer on a sum of two expansions, exchanging source and observer changes nothing: Lorentz's form of any two solutions at opposite in-plane wave vectors is the same on both sides of the stack; the specular reflectance for unpolarised light is the same at opposite directions of incidence, and the specular transmittance the same through the stack turned over.", "quantifier": "all pairs of lattices (rotated ones included), patterns, absorbing or amplifying layers, stacks, outer media, wavelengths and real in-plane wave vectors", "why_tests_cant": "A test compares two solves at sampled angles; the relation couples every order of the joint space with its opposite and must hold for every pair of patterns.", "anchors": ["khepri/extension.py:ExtendedLayer.solve", "khepri/expansion.py:Expansion.__add__", "khepri/crystal.py:Crystal.solve", "khepri/crystal.py:Crystal.poynting_flux_end", "khepri/alternative.py:incident"]}
{"id": "C99", "title": "T-matrix devices of lossy media lose power", "statement": "In the T-matrix interface, a layer whose islands lie without overlap in one cell and whose media have no gain (imaginary part of the permittivity not negative; at least the accuracy of the transforms where rectangles are drawn) lets out at most the power that enters, in any combination of orders. Cascading such layers and an interface keeps this, and at normal incidence compute_fluxes then returns R + T <= 1, A being the share of the incident power that is lost. A layer of media that all absorb never fails and makes A positive; any layer can be solved when it is thin enough.", "quantifier": "all lattices, square or one-line numbers of orders, lists of discs and rectangles laid out without overlap in a cell, host and island permittivities, depths, slicings, numbers of layers, excitations in propagating orders", "why_tests_cant": "An inequality over every lossy device, evanescent orders included; truncation could create gain at some pattern or number of orders, and a singular block at some depth, which sampled devices do not exclude.", "anchors": ["khepri/tmat/scattering.py:scattering_matrix_islands", "khepri/tmat/scattering.py:scattering_interface", "khepri/tmat/matrices.py:multS", "khepri/tmat/tools.py:compute_fluxes", "khepri/tmat/tools.py:compute_currents"]}
{"id": "C100", "title": "T-matrix devices are reciprocal", "statement": "On odd grids of orders, the S-matrices that scattering_matrix, scattering_interface and multS give at an in-plane wave vector kp and at -kp for the same layers are related by Lorentz reciprocity: E' x H - E x H' of any two total fields is the same in front of the device and behind it. Entry by entry: the amplitude with which a wave x (side, order, polarisation) leaves against y equals, up to the ratio of the kz and sign, that with which y leaves against x at -kp; in power, the two shares are equal. Losses, gain, overlapping islands and different slicings at the two wave vectors do not matter. Even grids have orders without opposite.", "quantifier": "every lattice, odd grid, list of islands, host, depth, slicing, wavelength and real in-plane wave vector for which both computations return, every stack of layers, and every pair of waves", "why_tests_cant": "A test can compare a few entries of a few devices up to rounding; reciprocity relates all entries of two different computations for all devices, including absorbing ones for which no energy balance helps.", "anchors": ["khepri/tmat/scattering.py:scattering_matrix", "khepri/tmat/scattering.py:scattering_interface", "khepri/tmat/matrices.py:multS", "khepri/tmat/lattice.py:CartesianLattice", "khepri/tmat/tools.py:compute_kz"]}
{"id": "C101", "title": "T-matrix devices do not depend on the origin, nor on half a turn", "statement": "If all the islands of every layer of a T-matrix device are moved by one vector, the S-matrix changes only by a phase for each order, and compute_fluxes returns the same for every source made by incident. If all the islands are turned by half a turn about the origin and the in-plane wave vector changes sign (odd numbers of orders), opposite orders are exchanged and compute_fluxes returns the same. A device that half a turn does not change has, at each in-plane wave vector, an S-matrix that is symmetric once each wave is weighed by its kz.", "quantifier": "All lattices with periods, islands (rectangles, discs, ellipses, uniform), media, displacements, in-plane wave vectors, depths, numbers of slices, stacks of layers", "why_tests_cant": "A test compares a pattern with one copy of it. The claim is about every pattern, displacement and stack, and the number of slices may differ between the two.", "anchors": ["khepri/tmat/scattering.py:scattering_matrix", "khepri/tmat/scattering.py:scattering_matrix_islands", "khepri/tmat/scattering.py:multS", "khepri/tmat/scattering.py:scattering_interface", "khepri/tmat/scattering.py:incident", "khepri/tmat/scattering.py:compute_fluxes", "khepri/tmat/matrices.py:matrix_u", "khepri/tmat/matrices.py:matrix_v"]}
{"id": "C102", "title": "A T-matrix device turned over is the device seen from its other side", "statement": "Take a stack of T-matrix layers followed by the interface, and the stack with its layers in the opposite order between the exchanged outer media. The S-matrix of the second is that of the first with the two sides exchanged (and one polarisation's sign changed), whatever the layers, the losses and the slicings. A single layer is the same from both sides. Projects of the ez interface that differ only by the exchanged outer media give such devices whenever their device names expand to opposite lists of layers. With reciprocity, on odd grids, each transmission coefficient of the turned device equals, up to the kz of the two waves, the opposite coefficient of the device; and when only the specular order propagates at normal incidence, the transmittances of both polarisations that compute_fluxes returns have the same sum for both devices, lossy or not.", "quantifier": "All lattices, grids of orders, lists of layers (islands, hosts, depths, slicings), wavelengths and real in-plane wave vectors for which both devices are computed", "why_tests_cant": "It compares two different devices for every structure; tests compare a few symmetrical structures, where the turned device is the same device.", "anchors": ["khepri/tmat/scattering.py:scattering_matrix", "khepri/tmat/scattering.py:scattering_interface", "khepri/tmat/matrices.py:multS", "khepri/tmat/tools.py:compute_fluxes", "khepri/ez.py:compute_spectrum"]}
{"id": "C103", "title": "T-matrix devices of lossy layers between transparent media are always computed", "statement": "Take any number of layers whose islands do not overlap and whose media all absorb (by more than the code smooths the shapes), between media of positive permittivities. Off grazing incidence in the incidence medium, no inversion is ever singular: not in the layers, not in the cascades between them, not in the interface; the device has an S-matrix for every thickness, slicing and number of orders, and it absorbs whatever reaches it. The same holds for transparent layers when every order propagates in the incidence medium: the device is computed, and it loses no power.", "quantifier": "All lattices, grids of orders, lists of lossy layers, or of transparent ones, wavelengths and real in-plane wave vectors off grazing incidence", "why_tests_cant": "Singular cascades appear at isolated parameters; only a proof that absorption excludes trapped waves rules them out for all structures.", "anchors": ["khepri/tmat/scattering.py:scattering_matrix", "khepri/tmat/scattering.py:scattering_interface", "khepri/tmat/matrices.py:multS", "khepri/tmat/matrices.py:matrix_s", "khepri/ez.py:compute_spectrum"]}

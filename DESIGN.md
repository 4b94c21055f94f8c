# Formal model of Kaeryv/Khepri in Lean 4

Khepri is a Python RCWA (rigorous coupled-wave analysis) solver: it computes how
light is reflected and transmitted by stacks of patterned layers.  `/verif/lean`
contains a Lean 4 model of the code in `/repo/khepri`, and theorems about it.

## 1. Trusted base

* Lean 4.33.0's kernel.
* The axioms used by every theorem are at most `propext`, `Classical.choice`,
  `Quot.sound` (checked by `#print axioms`, see `lean/Verif/Axioms.lean`).
  No axiom of our own, no `sorry`, no `native_decide`, no `bv_decide`.
* The faithfulness of the hand-written model to the Python text.  Every
  definition cites the file and lines it models and says where it simplifies.
  Nothing was run: the sandbox has neither numpy nor the project's dependencies.

### What is idealised everywhere

| Python | Model | Consequence |
|---|---|---|
| `float64`/`complex128` arithmetic | exact `ℝ`/`ℂ` | no rounding, overflow, signed zero or NaN |
| division by zero in numpy (inf/nan + warning) | explicit error value `PyErr.nonFinite` where the quotient feeds a result | results that would contain inf/nan are "no result" |
| `numpy.linalg.solve/inv` (LU; `LinAlgError` on an exactly zero pivot) | exact inverse when `det ≠ 0`, else `PyErr.linAlg` | ill-conditioning is invisible |
| `numpy.linalg.eig`, `scipy.linalg.expm`, `scipy.special.jv`, `scipy.linalg.eig` | a parameter with its mathematical contract as a hypothesis, or the exact Mathlib function (`NormedSpace.exp`) | LAPACK accuracy and convergence not modelled |
| `numpy.sqrt` on complex | principal square root (`Complex.cpow · (1/2)`) | signed zeros on the cut not modelled (always taken as `+0`) |
| numpy arrays | functions on `Fin n` / `ℕ` with explicit shapes, numpy index semantics (negative wrap, `IndexError`) where indices are computed | memory layout only where the code uses `as_strided` |
| Python exceptions | `Except PyErr` | messages and tracebacks not modelled |

### Hypotheses that stand for library routines or for the machine

* `EigContract eig`: what `numpy.linalg.eig` returns satisfies `A W = W diag(λ)`.  Nothing is assumed about the
  invertibility of `W`: the model's `solve` calls fail where the code's would.
* `GenEigContract`: `scipy.linalg.eig(A, B)` returns the solutions of `A x = w B x` of a regular pencil (C64).
* `BesselOne jv1`: `scipy.special.jv(1, x)` is Poisson's integral.
* `csqrt` is the principal branch; where the code's result depends on the sign of a float zero,
  the model takes `+0`.
* Absolute cut-offs in the code (`1e-8` in `incident` and in the disc transform, `2^-52` in
  `compute_currents`, `2^-26` in `compute_eta`, `1e-10` in `band_structure`, the window of `fexpz`) are
  modelled with their exact values.  The theorems name the windows they exclude.
* numba's `prange` bodies are interleaved reads and writes of an abstract machine; the reduction
  of `+=` on arrays is per thread (C57, C66).
* Aliasing: arrays are values in the model.  Where the code shares a mutable object on purpose or
  by accident (`islands()`, `_x`/`_y` of rotated expansions, cached properties of the T-matrix
  lattice) the sharing is modelled as state and said so in the definition.

### Coverage, file by file (`/repo/khepri`)

| File | Modelled | Not modelled |
|---|---|---|
| `alternative.py` | all functions | – |
| `layer.py` | all functions | – |
| `crystal.py` | all methods | the text of the warnings; `farfield` (calls a method that does not exist) |
| `expansion.py` | indices, wave vectors, rotation, sum of expansions, `kz_from_kplanar`, `g_vectors`, `k_vectors` | `plot` |
| `extension.py` | all functions, base layers that are `Layer`s | a `Crystal` as base layer (raises `AttributeError`) |
| `fields.py` | all functions | – |
| `fourier.py` | all functions | – |
| `draw.py` | all drawing, `canvas`, `islands`, `from_numpy` | `plot` |
| `factory.py` | `make_woodpile` | – |
| `beams.py` | rotation, shifts, both beams, sampled amplitudes, the Brillouin-zone grid | – |
| `eigentricks.py` | all functions | – |
| `misc.py` | block and tile splitting, `coords`, windows, `quiver`'s data, `poynting_vector` | `str2linspace_args`, `ensure_array` |
| `tools.py` | all functions | – |
| `constants.py` | conversions | the numeric constants enter as parameters |
| `ez.py` | materials, layers, recursion on devices, spectra, the geometry of the drawings | matplotlib calls, the command line |
| `tmat/*.py` | everything the spectra use, `multS`, `bz_path`, both island and pixmap matrices, the lattice accessors | `scattering_air_tmp`, `scattering_matrix_npy`, `polar_transform` (cannot run: missing arguments or attributes), saving and loading |
| `gui.py`, `__init__.py` | – | drawing of widgets; `pickle` |

Also outside of the model: logging, numba compilation, file and JSON parsing, performance, memory.

## 2. Layout

* `lean/Verif/Model/*.lean` – the code, function by function.
* `lean/Verif/Spec/*.lean` – small specifications that do not use the model's helpers.
* `lean/Verif/Lemmas/*.lean` – proofs.
* `lean/Verif/Props/*.lean` – the property theorems (named `Cxx_…`) and the
  non-vacuity examples beside them.
* `seeded/LOG.jsonl` – mutation log: wrong versions of the model and which theorems broke. `first_failures` are the declarations
  whose proofs stopped compiling; `failed` adds every property theorem that depends on one of them, so an entry of `failed`
  need not be false of the edited model. Most runs stop at the first round of failures. Ill-typed edits of rounds before the
  last were not logged; those of the last round are, with a note.

## 3. Plan per property

C01–C04: model `redheffer_product`, `scattering_identity` as `Except`-valued functions on
2×2 blocks of `Matrix n n ℂ`.  Spec: `Scatters S p q` (ports carry forward/backward vectors).
Proof: block algebra; uniqueness from "S is determined by its relation"; definedness by
`det (1 - XY) = det (1 - YX)`; associativity from associativity of relation composition plus
a determinant identity for definedness.

C05, C12, C13, C14: model `stack_layers` loop by loop (with mask indexing errors); spec
`Chain` (existential chain of ports).  Induction on the list.

C06: `translate_mode_amplitudes` against `Scatters`.

C07–C11: model `build_scatmat`, `scattering_reflection/transmission`; spec: continuity of
tangential fields `E = W(p⁺+p⁻)`, `H = V(p⁻-p⁺)` and modal propagation.  C10 through
`exp (t [[0,P],[Q,0]])`: every admissible eigenbasis gives the same field transfer.

C15: flux form `Im (E_x H̄_y - E_y H̄_x)` is conserved by `exp (t[[0,P],[Q,0]])` when `C` is
Hermitian, continuous at interfaces, and equals the code's `poynting_fluxes` in half spaces.

C16, C17: direct from the models of `incident`, `poynting_fluxes`.

C18–C20: 2×2 identities per diffraction order; principal-square-root lemmas.

C21–C25: integer index arithmetic; exact DFT; Parseval for positive definiteness.

C26–C28: `as_strided` modelled as flat-offset arithmetic on a memory buffer (`ℕ → ℂ`),
writes performed in loop order; spec is the entry formula.

C29–C33: `Crystal` as a state machine (`Op` list), layers in a finite map, mutable solve
results as state, set iteration order as an arbitrary permutation.

C34–C37: model `_fourier_fields`; spec: the boundary-value solution of C12.

C38–C42: `Drawing` as a state machine over pixel functions; interval integrals for the rectangle.

C43–C52: T-matrix formulation: `Matrix (n ⊕ n)` blocks, `NormedSpace.exp`, index arithmetic.

C53: nested configuration as an association list with fuel for the recursion.

C54–C57: index arithmetic, trigonometry, finite sums and permutations.

C58: Maxwell's equations in real space: derivatives (`HasDerivAt`) of the synthesised Fourier sums.

C59: Poisson's integral and polar coordinates; Green's theorem is avoided by integrating along chords.

C85: `AnyDevice` restates the run of a crystal without saying what its layers are. An extended layer is solved at
each g-vector of the other lattice; `ext_layer` shows that its block matrices are the modes of Maxwell's equations over
the joint orders, for the permittivity that couples pairs of orders with equal order of the other lattice. The rest is
the argument of C12 and C15. Needs two distinct expansion objects.

C86: the argument of C34 over `AnyDevice`: `fourierFields_kept` says what is returned from what a layer keeps after
`solve`, whatever its kind, and `twisted_layer` what extended layers keep.

C87: `Outcome` says what a run gives (S-matrix = Maxwell's equations, fluxes = waves), for plain crystals and for
stacks of two lattices. `outcome_carry` compares two runs when the orders of one are, turned and with phases, some of
the orders of the other; here order `r` is the pair `(r, middle)`.

C88, C89: `outcome_carry` again, between two plain crystals (`device_carry`): order `m` of a grating is order `(m, 0)`;
order `(m, n)` of a turned device is `(±m, ±n)` or `(n, m)`, with the phases that `np.flip` adds to the Fourier
coefficients. `SourceTurned` says which polarisations describe the turned incident wave.

C90: runs of one device at one wave vector have the same S-matrix (`outcome_same`), so the powers are a quadratic form
in `(te, tm)`; a mirror carries `(te, tm)` to `(te, -tm)`, and the cross term of the form drops out of the sum of the two.

C91: `TCascade` and `TStack` list the ways to build a device of uniform layers; each order of such a device is a pair of
scalar problems (`polAt`), solved by the characteristic matrices with everything conjugated, because this interface has
the time dependence `exp(-iωt)` and `Spec/Multilayer.lean` the other. The powers then match those of C70.

C60, C61, C84: relations (`TScatters`) between fields at two planes in the T-matrix convention; `matrix_s` is
the unique S-matrix of a transfer matrix; energy by the conserved form of the transfer; Fresnel's formulas from
uniqueness of the S-matrix.

C62, C63, C70–C76: theorems about the crystal from the state-machine model (`build_fresh`, `DeviceRun`) and the
relation of C12: two devices whose relations agree have the same S-matrix.  C70 through the characteristic
matrix of a film, C72/C73/C74 by transporting the relation (scaling, rotation, translation), C75 by a bilinear
conserved form (Lorentz).

C64–C67, C77–C82: index arithmetic and finite sums; memory written in loop order where `as_strided` or
`np.empty` are used.

C92: the sum over the pixels against `Spec/Fourier.lean`.

C93, and C74 for islands: `twisted_carry` carries the outcome of C85's uniqueness along a map of the joint orders and a
phase for each order; the map and the phases are products of those of the two lattices (`pairMap`, `pairPhase`), so each
lattice can be displaced, turned or listed on its own.

C94: power. In a layer that absorbs everywhere the power flow is strictly decreasing unless the field is zero
(`power_flow_strict`), so a field that solves one of the linear systems with zero right-hand side must vanish; the modes
are damped, hence the matrices of `build_scatmat` are regular; in a cascade the same argument is applied to the wave that
circulates between two halves (`circulates_left`, `circulates_right`). For no layer at all two half spaces of positive
permittivity carry no surface wave (`no_surface_wave`).

C95: the same in the joint space. A layer of one lattice is solved at every wave vector shifted by the other lattice
(`twisted_layer_exists`: the orders met there are orders of the joint space), and its joint permittivity matrix is
strictly absorbing because its blocks are (`spread_strict`).

C96: the energy argument of C94 with the strictness moved to the outer media: if every order propagates in a half space,
a field without incoming wave that loses no power there vanishes (`reflection_strict`, `transmission_strict`), and layers
without gain pass on what they receive (`Passes`, `stackLayers_passive`). A uniform layer in vacuum is regular because
its wave numbers cannot cancel those of propagating orders (`kz_no_cancel`). The guiding slab of the counterexample is
computed in full (`guided_scatmat`).

C97: the quadratic form of a permittivity matrix is the mean over a cell of the permittivity times the intensity of a
superposition of plane waves (`pattern_quad`), whose mean is the norm of the coefficients (`cell_parseval`); for islands
without overlap the permittivity at each point is that of the host or of one island (`laid_weights`), so the form is a
weighted mean of those (`weighted_range`). What rectangles are off by is bounded with C41. The layout is described in
`Spec/Laid.lean`.

C98: Lorentz's form of C75 in the joint space: numbers `(r, i)` and `(M-1-r, M-1-i)` are opposite orders (`pairPos_rev`)
and the joint permittivity is symmetric under that exchange (`joint_opposite`).

C99: Poynting's theorem for the system a T-matrix layer exponentiates (`tpower_rate`), whose two coupling matrices are
the permittivity and its inverse over the same islands, both bounded as in C97 (`coupling_range`). A field that loses no
power in a medium that absorbs everywhere vanishes (`tpower_strict`), which excludes a singular block (`lossy_det`).
`Spec/TmatPassive.lean` says what losing power means.

C100: `E' × H - E × H'` (`tLorentz` in `Spec/TmatReciprocity.lean`) is constant along two T-matrix layers at opposite
in-plane wave vectors because the coupling of orders depends on their difference only (`coupling_rev`, `lorentz_rate`);
in the amplitudes of a medium it pairs forward with backward waves, with weight `kz` up to sign (`lorentz_V`). Needs grids
of odd sizes: others have orders without opposite (`C100_even`).

C101: both systems of equations of a layer are carried into one another by a change of amplitudes order by order
(`TCarried` in `Spec/TmatSymmetry.lean`): phases for islands moved by a vector, the exchange of opposite orders for islands
turned by half a turn. `TCarried` passes through `multS`, and `compute_fluxes` only sees the moduli. Half a turn needs grids of
odd sizes, like C100; with C100 it gives the symmetry of the S-matrix of devices that half a turn does not change.

C102: a solution of Maxwell's equations in a layer, seen in a mirror (`mirror` in `Lemmas/TmatTurned.lean`), is a solution
in the same layer, so the chain of solutions through a stack (`C102_fields`) reversed is one through the turned stack. The
transmittances then follow from C100. `C102_project` states it for two projects of the ez interface whose names expand
to opposite lists of layers (`Props/TmatProject.lean`).

C103: a singular cascade would trap a wave between two parts without anything coming in; the first one absorbs it and
nothing gives the power back (`lossy_cascade`). The interface is singular order by order only if a positive combination of
the `kz` of both media vanishes, which the branch of `compute_kz` excludes (`kz_sum_ne`). Transparent layers (`C103_lossless`): a trapped wave would send
power out on the left, or else send nothing out there, and then be zero; this needs every order to propagate in the incidence
medium. With evanescent orders nothing is claimed: a trapped wave may then send out an evanescent field that carries no power.

C68, C69: derivatives of the beams; Parseval for the power.

C83: the spectrum loop of `ez.py`, row by row, on top of C53, C60 and C61.

Properties that turn out to be false of the code are kept as stated in
`properties.jsonl`; the model carries a `…_counterexample` theorem and the strongest true
part as `…_partial`, and section 4 records the disagreement.

## 4. Findings (places where the code violates a property)

Each is a theorem (`…_counterexample`, or a lemma named in brackets); the strongest true part is proved next to it as
`…_partial`.

| Property | What the code does |
|---|---|
| C17 | `incident` treats every in-plane wave vector shorter than 1e-8 as normal incidence, so close to it the polarisation is not transverse (`C17_cutoff_counterexample`; `C17_cutoff_bound` bounds the error). At normal incidence te and tm jump with respect to their limits. |
| C20 | Half spaces use `conj(csqrt(eps - k^2))`: right exactly for real `eps` (`C20_own_modes_iff_real`); for complex `eps` the modes are those of the conjugate permittivity. |
| C30 | `set_source` after `solve` leaves the old `Stot` in place, and `poynting_flux_end` then mixes the new source with the old device (`C30_stale_counterexample`). |
| C31, C33 | With `void=True` the outer media are not in the device, so `zmax` drops the last layer and fields are looked up in the wrong place (`C31_void_counterexample`, `C33_void_counterexample`); `z = -inf` is located in the emergence medium. A mask longer than the device misaligns the stored matrices, a shorter one raises `IndexError`. |
| C34 | In the emergence medium the fields are evaluated with the depth of a layer that has none (`C34_emergence_counterexample`); phasors are clamped at 1e14, which changes deep evanescent fields. |
| C37 | The default source of the field queries carries a quarter of the power used by `poynting_flux_end` (`C37_quarter_partial`). |
| C38 | `islands()` returns the live list, later drawing changes it (`C38_islands_live`). A complex permittivity on a real background raises `TypeError`. Parallelograms lean about the line Y = 0. |
| C39 | `from_numpy` on a uniform array changes the recorded background but not the canvas (`C39_uniform_counterexample`); on other lattices than the unit square the bars are at absolute positions (`C39_lattice_counterexample`). |
| C40 | Overlapping shapes add up in the islands but overwrite on the canvas; parallelograms are not recorded; ellipses have no transform (three counterexamples). |
| C41 | Analytical layers with orders along both vectors get the transposed pattern (`C41_counterexample`, `C41_transposed`). |
| C44 | For a negative `float` permittivity numpy's square root gives nan (`C44_negative_float`). |
| C47 | `CartesianLattice.gx` has shape `pw` only for square `pw` (`C47_partial`, `C47_counterexample`). |
| C50 | `compute_fluxes` ignores the `kp` it is given (`C50_counterexample`). |
| C51 | `tmat.scattering.scattering_identity` is never neutral: its blocks are those of a mirror in the layout of `multS` (`C51_counterexample`). |
| C53 | `ez.py` imports `incident` and `compute_fluxes` from `khepri.tools`, which does not define them: the script stops there. `repeat = 0` is solved as 1 and drawn as 0 (`C53_zero_repeat`). |
| C58 | The longitudinal components have the sign of the other Bloch convention: real-space fields obey Maxwell's equations only read at the mirrored point (`C58_counterexample`, `C58_mirrored_partial`). |
| C64 | `band_structure` keeps the real parts that are within 1e-10 *below* 1 (`C64_counterexample`). |
| C65 | `misc.split` uses the number of columns where it needs the number of rows (`C65_counterexample`). |
| C66 | `idft2` steps by `(max - min)/n` and never evaluates at the points it is given (`C66_counterexample`). |
| C67 | `ez` passes a rectangle's centre and size as its two corners (`C67_counterexample`). |
| C68 | Beams in a medium use the vacuum wave number and divide `hy` by the index (`C68_medium`, `C68_impedance`: right exactly if `er = 1`). |
| C69 | The real part of `poynting_vector` is zero for a plane wave in vacuum, because H is scaled by i (`C69_counterexample`; the imaginary part is right). |
| C71 | The documented lattice name `hexa` is refused (`C71_counterexample`). |
| C77 | Woodpiles with complex permittivities raise `TypeError`; for half of the widths the third row is two pixels wider than the first (`C77_lossy_counterexample`, `C77_half_period_counterexample`). |
| C78 | Sampled amplitudes are larger than the true ones by the number of pixels of a side; for cells that are not square some are uninitialised memory (`C78_counterexample`, `C78_memory_counterexample`). |
| C79 | `quiver` exchanges the two components; a negative stride reads outside of the image (`C79_quiver_counterexample`, `C79_stride_counterexample`). |
| C80 | `fourier2real_fft` divides by the number of points and evaluates the Bloch phase at other points than the periodic part; other parities and shapes are refused. `fourier2direct2` transposes two-dimensional arrays (`C80_*_counterexample`). |
| C81 | At normal incidence the crystal interface exchanges te and tm with respect to the limit and to the T-matrix interface (`C81_crystal_counterexample`, `C81_agree_counterexample`). |
| C82 | The mask of `restrict_radius_mask` is in C order, amplitudes in Fortran order; `eta_normal` stays stale after `gx` is assigned (`C82_mask_counterexample`, `C82_eta_counterexample`). |
| C83 | `ez` spectra at oblique incidence weight the currents as at normal incidence: a bare interface between vacuum and `eps = 4` at 60° is said to absorb (`C83_oblique_counterexample`). |
| C86 | `ExtendedLayer` keeps 1 as inverse permittivity: what is returned as Ez in its layers is the displacement Dz (`C86_longitudinal_partial`, `C86_ez_counterexample`). |
| C91 | The two interfaces have opposite time conventions: given the same complex permittivity they report different powers (`C91_counterexample`); a loss in one is a gain in the other. |
| C92 | `transform_pixmap` divides the bare sum over the pixels by `sigma`: right exactly if `sigma` is the number of pixels (`C92_exact`, `C92_counterexample`). |
| C96 | Every layer is solved alone in a vacuum gap. A lossless layer with a guided mode in vacuum at the given wave vector makes `build_scatmat` meet a singular matrix, so `solve` raises although the device, between denser media, has no such mode; cutting the layer in two makes it solvable (`C96_counterexample`). |
| C97 | With different numbers of orders along the two lattice vectors (both above one) a lossy bar in a lossless host makes a layer with gain (`C97_counterexample`), another effect of the row length of C41. |

Other disagreements met while modelling, not stated as properties: `Crystal.fields_coords_xy(z='farfield')` calls a method
that does not exist; an extended layer over a `Crystal` base has no `fields` attribute; extended layers do not forget old
modes when fields are switched off; a layer replaced after `set_device` loses its
fields flag; `block_split` drops the last row and column of odd sizes; the beams divide H by the index instead of
multiplying; `amplitudes_from_fields` normalises by the number of cells times the side of a cell only; the last point of a Brillouin-zone path is never visited;
pixel `i` of `n` sits at `i/n` of the period and not at the middle of its share, so `np.flip` mirrors layers of different
pixel counts about different points (hence the common size in C89);
`scattering_air_tmp`, `scattering_matrix_npy`, `polar_transform` cannot run (wrong arguments).

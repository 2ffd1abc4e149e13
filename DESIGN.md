# Formal model of legume in Lean 4: design

The code under study is `/repo/legume` (pure Python on top of numpy / scipy /
autograd).  It is read as text and never executed.

## 1. Method and layout

* `lean/Verif/Model/*.lean`  - the model: small total functions which mirror the
  Python functions branch by branch.  Every definition cites file and lines and
  states its simplifications.
* `lean/Verif/Spec/*.lean`   - the specification vocabulary (what "tiles the axis",
  "N nearest", "is the unique region", ... mean), written without using the model.
* `lean/Verif/Lemmas/*.lean` - helper lemmas.
* `lean/Verif/Props/*.lean`  - the property theorems, each followed by an `example`
  showing that a concrete non-trivial case meets its hypotheses.

Exceptions are values (`Except PyErr`), mutation becomes "return the new state",
loops become folds or structural recursion, calls to external numerical routines
(`eigh`, `brentq`, `scipy.special.j1`, autograd's `value_and_grad`,
`matplotlib.path.Path`) become parameters; when a theorem needs something from such
a routine the needed contract is a hypothesis of the theorem and is listed in 3.

## 2. Trusted base

* The Lean 4.33.0 kernel.
* The axioms `propext`, `Classical.choice`, `Quot.sound` (those used by Mathlib).
  No axiom is added; no `sorry`, `admit`, `native_decide`, `bv_decide`,
  `implemented_by`, `unsafe`.
* The reading of the Python source: the correspondence of each model definition with
  the cited lines is by inspection only.
* Arithmetic: floating-point numbers are modelled by exact numbers (an arbitrary
  ordered field, or `Real` / `Complex` where square roots, trigonometric functions and
  exponentials are needed).  Rounding, overflow, NaN and infinities are not modelled.
  Integer and index arithmetic is exact in Python too.
* numpy semantics used by the code (broadcasting, slicing, boolean masks, negative
  indices, `argsort`, `unique`, `toeplitz`, `triu`) as documented by numpy/scipy and
  written out in the model.

## 3. External routines and the contracts assumed for them

| routine | where | contract used |
|---|---|---|
| `numpy.linalg.eigh`, `scipy eigsh` | gme, pwe, exc | returned pairs are eigenpairs of the matrix; eigenvalues ascending (`eigh`) |
| `scipy.optimize.brentq` | slab_modes | on a sign change returns a point of the bracket which is a root |
| `scipy.special.j1` | shapes | an odd real function (only used where stated) |
| `autograd.value_and_grad` | minimize | an arbitrary function returning (value, gradient) |
| autograd's own rules | pwe, gme | reverse mode applies the registered rules in reverse order; the built-in rules for sums, products, `abs` and indexing are the usual ones (`backFreq`, `backInv`) |
| `Shape.is_inside` | layer | an arbitrary predicate on points (modelled concretely for Circle) |

## 4. Not modelled

How figures look (`viz.py` is modelled up to the arrays, colour ranges and curves handed to
matplotlib; colours, labels and layout are not), GDS file writing, reports printed by runs
(the texts of structures and the progress bar are modelled), wall-clock timing, autograd's
tracing machinery, memory consumption.

## 5. Plan per property

The notation "inv" means invariant by induction on the list of operations, "alg" an
algebraic identity for all values, "ref" refinement to a specification, "neg" that the
code violates the full property: a counterexample theorem is proved together with a
`_partial` theorem.

| id | modelled | how proved |
|---|---|---|
| C01 | `PhotCryst.__init__`, `add_layer`, `add_qw`, `add_shape` as a state machine | inv over op lists |
| C02 | `PhotCryst.get_eps` (fold over layers+claddings with half-open masks) | inv + ref to "unique region" |
| C03 | `get_eps_bounds`, `ShapesLayer.get_eps` | induction over layers and shapes |
| C04 | `ShapesLayer.add_shape` | inv, permutation-invariance corollary |
| C05 | error branches of the three building calls | case analysis; neg for shape lists that fail midway |
| C06 | `z_to_lind` loop | inv + ref |
| C07 | `add_qw` guard, `z_to_lind` | inv over op lists |
| C08 | `ShapesLayer.get_eps` triple loop with the `nmax` window | ref for a lattice class where the window suffices; neg (hexagonal) |
| C09 | `Lattice.__init__`, `_parse_input` | alg over reals, exp(iGR)=1 |
| C10 | `bz_path` list construction | induction over the point list |
| C11 | `_parse_point` | alg + integer inequality over the lattice |
| C12 | `compute_ft` of Circle / Ellipse / Poly including regularisers | alg, induction over edges |
| C13 | `Poly.__init__`, `Poly.compute_ft` at G=0 | alg + list induction |
| C14 | `Poly.rotate` | alg + list induction |
| C15 | `Square`, `Hexagon` | alg |
| C16 | `compute_ft` | alg |
| C17 | `_init_reciprocal_tbt` | list lemmas |
| C18 | `_init_reciprocal_abs` | soundness inv; completeness under the obliqueness condition; neg for very oblique lattices |
| C19 | `toeplitz_block`, `_compute_ft_tbt`, `_construct_sym_mat` | index arithmetic with div/mod |
| C20 | `_compute_ft_abs`, `_construct_sym_mat` | sorted-list symmetry lemma |
| C21 | both | corollary of C19, C20 |
| C22 | `D22_TE`, `D22_TM`, `D22s_vec` | alg with complex exp |
| C23 | same, lists of layers | alg + induction |
| C24 | same | matrix identity by induction over the stack |
| C25 | `AB_matrices` | induction over the stack |
| C26 | `guided_mode_given_g` | list induction, brentq contract |
| C27 | `I_alpha`, `J_alpha` | integration in Mathlib |
| C28 | `matrix_elements.py` | alg, sum over layers |
| C29 | `_construct_mat` completion | matrix algebra |
| C30 | `_separate_hamiltonian_dense/_sparse` | matrix algebra over pairings |
| C31 | `run`/`compute_eps_inv`/option caching as a state machine | neg + partial |
| C32 | post-processing of eigenvalues in `run` | list lemmas + eigh contract |
| C33 | `_compute_rad_components` final formula | complex sqrt |
| C34 | `run_im` | alg |
| C35 | `_compute_rad_components` sums | induction |
| C36 | `PlaneWaveExp.run` | matrix algebra |
| C37 | `PlaneWaveExp.ft_field_xy` | alg |
| C38 | `ExcitonSchroedEq.run`, potential matrices, `compute_exc_ft` | Toeplitz assembly, contract of eigh |
| C39 | `compute_exc_ft` | neg for two shapes; partial for one |
| C40 | `_calculate_fraction` | sums |
| C41 | `_construct_Hopfield` | involutions of block matrices; negation with losses |
| C42 | `Minimize.adam` | inv over epochs |
| C43 | `Minimize.adam` | inv over epochs |
| C44 | `_step_adam` | induction over epochs |
| C45 | `_parse_bounds` | case analysis |
| C46 | `extend` and its vjp | sums over index lists |
| C47 | `toeplitz_block` vjps | sums |
| C48 | eigh vjp | sums |
| C49 | inv vjp | matrix algebra / derivative |
| C50 | interp vjp | sums |
| C51 | fsolve vjp | chain rule in Mathlib |
| C52 | `grad_num` | alg |
| C53 | `find_nearest` | sorted-permutation lemmas |
| C54 | `RedhefferStar` | field_simp |
| C55 | `ftinv` | sums over Finset / dedup |
| C56 | `from_freq_to_e` | case analysis; neg at a=0 |
| C57 | `_get_guided`, `_compute_guided` | list lemmas |
| C58 | `viz.calculate_x` | sums |
| C59 | `viz._calculate_LL` | order reasoning |
| C61 | structure state machine | ref to an independent log of calls |
| C62 | `FourierShape.__init__` | alg, list induction |
| C63 | `normalization_coeff` | integration in Mathlib, error bounds |
| C64 | `rad_modes` | corollary of C25 and reversal |
| C65 | `matrix_elements.py` | integration in Mathlib |
| C66 | `_construct_mat` | positivity under the integral, induction over layers |
| C67 | `ft_field_xy` | derivatives, alg, sums over the basis |
| C60 | `set_backend`, `set_print_backend` | inv over histories |
| C68 | `Minimize.adam` | inv over epochs with aliasing flag; neg for one epoch |
| C69 | `vjp_maker_eigsh`, `_fmap`, `_spdot`, `_eig` | derivatives in Mathlib; neg for eig |
| C70 | `vjp_maker_sqrt` | derivative, inequalities |
| C71 | `run` with `kz_symmetry='both'` | selection lemmas on top of C30; neg for large odd sectors |
| C72 | `_compute_rad_components` checks, `compute_rad` | list lemmas |
| C73 | `ft_field_xy` | Fourier-space curl; negation by two plane waves |
| C74 | `get_field_xy`, `ft_field_xy` | list induction |
| C75 | `ExcitonSchroedEq.__init__`, `HopfieldPol.__init__` | invariants of C07 |
| C76 | `_calculate_C_D`, `_construct_Hopfield` | diagonal similarity; negation by two modes |
| C77 | `_construct_Hopfield` | reindexing; negation by two wells |
| C78 | `HopfieldPol.run` | counting roots |
| C79 | `HopfieldPol.run` | induction on histories |
| C57 | `_compute_guided`, `_get_guided`, `_construct_mat` | lists; a tail of the grid carries the mode; negation by a missing mode |
| C58 | `calculate_x` | prefix sums |
| C59 | `_calculate_LL` | monotonicity of the square |
| C60 | `set_backend`, `set_print_backend` | induction on histories |
| C80 | `_get_guided`, `run` | segments of the grid; triangle inequality |
| C81 | `_calculate_Q`, `load_bar` | ordered field |
| C82 | `_construct_Hopfield` | reduction to sums and differences of the amplitudes; trace of the square |
| C83 | `Poly.compute_ft` against the area integral | Green's theorem on signed triangles, Lipschitz bounds for the displaced edges |
| C84 | `compute_ft` of Circle / Ellipse against the area integral | Bessel's integral, Fubini, integration by parts over a period |
| C85 | `k_indexes` and `angles` of `bz_path` against the length of the polyline | telescoping of the sampled segments, polar form of the argument |
| C86 | `xy_grid`, `z_grid` | closed form of `linspace`; the built-in lattices by computation |
| C87 | `_calculate_refl_mat`, mirror axes, lookup of the reflected plane waves | half-even rounding, integrality of the reflected basis vectors, C18 (point symmetry) |
| C88 | `lbfgs` as a machine driven by the evaluations and reports of SciPy | induction over the event sequence |
| C89 | `generate_gds`, `generate_gds_raster` up to the file library | composition of rigid maps, C13, affine map of the raster |
| C90 | `vjp_maker_num`, `ft2square` | list algebra, slope form of the derivative |
| C91 | `PlaneWaveExp.run` composed from the models of its steps, layer without contrast | the matrix is diagonal; eigenvalues by the characteristic polynomial |
| C92 | the same run for displaced, reordered, reversed and rescaled layers | unitary equivalence of the matrices; uniqueness of sorted eigenvalues |
| C93 | matrix elements and completed matrix of the expansion for an unpatterned slab, with amplitudes from `AB_matrices` and `normalization_coeff` | bilinear conservation law of the guided modes, telescoped over the interfaces; charpoly of a diagonal matrix |
| C94 | `_get_chi` on complex arguments | complex power and argument |
| C95 | Displacement, order and contrast-free invariance of a whole guided-mode run | unit phases conjugate every permittivity matrix and hence its inverse; the blocks of the expansion matrix pick up the phases; characteristic polynomials agree and sorted spectra are determined by them |
| C96 | Reversed stack: amplitudes of `AB_matrices`, norm, elements, spectrum | interfaces determine amplitudes up to a factor; reflection of fields and layer integrals; TE even and TM odd signs; equal characteristic polynomials |
| C97 | Subdivided layer: amplitudes of `AB_matrices`, norm, elements | uniqueness of amplitudes; shift of origin; additivity of the integral |
| C98 | `get_eps_xy` of both solvers | index sets of G1, G2 and their negatives fill a rectangle; C55 (each vector once); orthogonality of plane waves over the cell |
| C99 | overlaps of the fields of a guided-mode expansion | Parseval over the cell; layer integrals of pairs of states; orthonormality of guided modes (C93); C28, C67 |
| C100 | `get_field_xy`, `get_field_xz`, `get_field_yz` | C55 (every vector once), C74 (components); entries as a function of the point |
| C101 | Fourier coefficients of a layer against the permittivity in the plane; `eps` matrices of both solvers | folding of the plane into the elementary cell (fundamental domain), C83/C84 for the transforms of shapes, Parseval and Cauchy–Schwarz |
| C102 | frequencies of `PlaneWaveExp.run` as a function of the permittivities | min-max principle (counting eigenvalues below a bound), inversion reverses the order of positive definite matrices, C101 |
| C103 | frequencies of `PlaneWaveExp.run` (`pol='tm'`) as a function of `gmax` | `K ε⁻¹ K` as the generalised problem `K² x = λ ε x`, nested index sets, min-max principle |
| C104 | frequencies of `GuidedModeExp.run` as a function of the set of guided modes | matrix of the smaller run as a compression of that of the larger, min-max principle, lowest modes = nearest to `eig_sigma = 0` |
| C105 | frequencies of `GuidedModeExp.run` as a function of the permittivities at fixed effective permittivities | the matrix is a positive form in the inverse permittivity, C101, min-max principle |
| C106 | frequencies of `GuidedModeExp.run` under the change of `IJ_layer` by the regulariser | Weyl's inequality by counting eigenvalues, entrywise error bound of C28, entries of inverses of matrices bounded from below |
| C107 | `ft_field_xy` and `get_field_xy` of both solvers against the permittivity drawn in the plane | Fourier coefficients of the product of permittivity and field (C101), counterexample with displaced holes |
| C108 | guided-mode frequencies at opposite wave vectors, and of inverted patterns, agree | conjugate fields satisfy the same interface conditions, so that the normalised modes are real (uniqueness, C96); elements of real modes conjugate with the inverse permittivity; a Hermitian matrix and its reindexed conjugate have one characteristic polynomial |
| C109 | exciton energies at opposite wave vectors, of inverted and displaced patterns agree; fall with more plane waves; lie between those of the free exciton and of the free exciton raised by the depth; rise with the potential | Hermitian matrices with equal characteristic polynomial; Rayleigh-Ritz on nested index sets; the form of the potential drawn lies between 0 and the depth (C101), eigenvalue counting |
| C110 | exciton wave functions: orthonormal; solve the equation of the potential drawn ('tbt') or of its inversion ('abs'); get_pot_xy is the truncated Fourier series ('abs') or an IndexError ('tbt') | Fourier coefficients of products over the cell (C107), columns of a unitary matrix; counterexample: disc at a quarter of the cell, some mode misses the equation by 0.04 V/N |
| C111 | frequencies of a patterned slab between scaled frequencies of the guided modes of the effective slab; holes never lower a frequency; with the regularised integrals up to the effect of C106 | the matrix of uniform layers is diagonal in the guided modes (C93); monotony of the form in the inverse permittivities (C105), bounds of the permittivity matrix (C101), min-max |
| C112 | criterion for real lossless polariton energies: iff for one photonic mode, sufficient bound for any number of modes and wells, always for one well with real couplings; stored energies | the Hopfield matrix times its metric is Hermitian; completing the square over the excitons gives its sign; eigenvalues of a matrix self-adjoint under an indefinite metric with semidefinite form are real; intermediate value theorem on the dispersion relation (C82) for the converse |
| C113 | whole polariton runs: stored energies, couplings as overlaps of real-space fields and wave functions, selection rule, real energies for weak fields, errors | C78/C112 for the Hopfield problem of the run, Parseval on the cell for the overlaps, Bessel's inequality for the couplings, multiplicities of roots under the shift by one |
| C114 | The panels of `viz.field`: planes, pixels, colour limits, extents, outlines, phases and errors | Tabulated fields of C100 carried through the loop over the components with its in-place multiplication |
| C115 | Markers, colours, axes and light cone of `viz.bands` and `viz.pol_bands`; errors | Row-major indexing of tables; C58 and C59 for the abscissae and the light line |
| C116 | Panels, pixels, colour limits and titles of `viz.eps*`, `viz.structure`, `viz.eps_ft`, `viz.pot_ft`; errors | C01-C03, C06, C61 for heights; C08 for the periodic map (also with the window of the hexagonal lattice); C98, C110 for the series |
| C117 | Frequencies, channels, couplings and losses of runs with `compute_im=True`; displacement, order of shapes, upside down, unpatterned | eigenvectors of matrices that differ by phases span the same eigenspaces up to these phases; C39, C65, C93, C95, C96 |
| C118 | From the slab to the basis of a run; frequencies and losses of unpatterned structures, opposite wave vectors, RuntimeError | the code's basis is shown equal to the one from branches of C108, then C108, C111, C117; intermediate values for root finders `C118_history`: frequencies found do not depend on the other wave vectors if fewer modes are found than searched for. |
| C119 | Existence of radiative waves in open channels; couplings as overlap integrals, for one mode and for whole runs | conservation of flux excludes zeros of the amplitude (C25, C24); C64 for the fields; Bochner integrals of a decaying times a bounded field, finite sums exchanged with integrals |
| C120 | Energy conservation of radiative waves | flux through each interface from the boundary conditions |
| C121 | Runs with kz_symmetry against runs without, from the structure on | the mirror permutes the basis of every block and commutes with the matrix; characteristic polynomial of the separated blocks; sorting of permuted lists |
| C122 | Plane-wave expansion of similar and of symmetric crystals | the plane waves correspond one to one, the permittivity matrices are equal up to the order and the eigenproblem scales; characteristic polynomials; C91 for the hexagonal counterexample |
| C123 | Guided-mode runs of rotated, mirrored and symmetric structures | the basis elements correspond one to one with the same amplitudes; polarisation vectors turn with the plane, TE elements change sign under mirrors; permittivity matrices are equal up to the order of the waves; characteristic polynomials |
| C124 | curves of viz.shapes are the outlines of the copies displaced by 0, ±a1, ±a2; ellipses raise; the copy at -a1-a2 is missing | closed path = polygon boundary; nearest of the angles on the grid; triangle inequality for the counterexample |
| C125 | repr fails exactly on ellipses; text grows by the text of what is added | mapM with one kind of error; strings |
| C126 | Guided-mode bands times c / n when lengths are divided by c and permittivities multiplied by n² | Each matrix element is homogeneous: χ, transfer matrices, A, B, normalisation, integrals and permittivity matrices are scaled one by one (`Lemmas/ScaleRun`), the matrix is (c/n)² times the original one and sorted eigenvalues follow. `C126_scale` for guided modes given by branches of the dispersion relation, `C126_units` for legume's own search (`Lemmas/ScaleGuided`), where n = 1 because the bound `omegas[-1] + step + (g - g_array[ig - 1])` adds a frequency and a wave number (slab_modes.py), and the thresholds 1e-4, 1e-8 and 1e-10 must not tell the units apart (`UnitNeutral`, met by `neutral_of_separate`). gmax must not be the length of a reciprocal vector (`OffCut`), because the code adds 1e-10 to it then; layers must be taken as uniform in both units or in neither (`SameHom`). Circles are excluded, because their transform adds 1e-10 to \|G\|. |
| C127 | Losses and couplings of rotated, mirrored and symmetric structures | The matrix of the moved structure is D M D⁻¹ with a signed permutation D (`Lemmas/IsoRun`), the overlap of each basis element with each radiative mode is multiplied by the same signs (`radElem_iso`), so that the couplings of an eigenvector are those of its image. Simple eigenvalues: eigenvectors agree up to a phase; degenerate ones: the sum of squared couplings is the trace of a positive form over the eigenspace, independent of its basis (`Lemmas/RadMove`). `C127_image`, `C127_symmetric`. |
| C128 | Losses at opposite wave vectors | The conjugate of a radiative wave of the code at g is a solution of the stack at -g, so it is a combination of the two radiative waves of that plane wave (`wave_reversal` in `Lemmas/RadReverse`); conservation of the flux (C119, C120) makes the coefficients an isometry in the power. The eigenvectors at -k are conjugates of those at k up to a change of basis, so the sum over the two claddings of |coupling|² times density of states is the same (`Lemmas/RadReverseRun`). `C128_reversal`, `C128_branches`, `C128_run`, `C128_waves`. |
| C129 | Losses in other units | A radiative state of the scaled stack is the scaled state with amplitude 1/√c (`radState_scale` in `Lemmas/ScaleRad`), the coupling of a guided mode scales with c / n, and the density of states does not change; eigenvectors of the scaled matrix are eigenvectors of the matrix. `C129_units`, `C129_scale`, `C129_quality`. |
| C130 | What an object shows after `run` | A state machine with the four attributes, one function for the four orders in which `run` writes them (`Model/Results`); induction over the loop and over histories. `C130_fresh`, `C130_success_partial`, `C130_failed`, `C130_history`, `C130_empty`; `C130_mixed` is a counterexample. |
| C131 | `viz.wavef`, `viz.reciprocal` | The image as in C115 (`table`, `ftinvAt_point`), the mean of the density from C110, `viz.reciprocal` by induction over histories (C130). `C131_image_partial`, `C131_density`, `C131_norm`, `C131_errors`, `C131_reciprocal`; `C131_re_periodic` is a counterexample. |
| C132 | Losses of structures upside down and of subdivided layers | The radiative wave of the turned or subdivided stack is the turned or subdivided wave (`RadWave.turned`, `RadWave.split`), as waves are unique (`RadWave.unique`); the elements of the matrix and the overlaps then agree up to phases (`turned_elems`, `split_elems`), and powers of groups of modes do not depend on phases or eigenvectors (`radAt_swapped`). `C132_upside_down`, `C132_frequencies`, `C132_subdivision`, `C132_subdivision_frequencies`, `C132_branches`, `C132_branches_subdivision`. With the search of the code (`C132_run`, `C132_run_slab`, `C132_run_subdivision`, `C132_run_layers`, `C132_finders`): upside down and subdivided the dispersion function has a positive factor (`slabDisp_flip`, `slabDisp_split`, `slabDisp_cut`), so the brackets are the same, and with modes further apart than the step so are the roots (`freqs_same`, `code_same`). |
| C133 | Excitons in rotated, mirrored and rescaled wells | The plane waves, kinetic energies and coefficients of the image of a well are those of the well (`WellImage.inds`, `excKin_image`, `WellImage.ft`), so the Hamiltonians are the same up to the numbering. In a symmetric well the rotation permutes the plane waves; all coefficients but the average are linear in the shapes (`excPot_linear`). `C133_similar_partial`, `C133_symmetric_partial`, `C133_similar_fails` (two discs in units half as long, with a single plane wave). |
| C134 | Fields of rotated and mirrored structures | Plane waves and polarisation vectors of the guided modes are mapped (`image_pq`, `dMode_image`, `hMode_image`), up to signs for mirrored modes; the matrix of the mapped structure is the conjugate of the original by these signs (`gmeMatIj_image_vec`), so eigenvectors go to eigenvectors, and the Fourier sums of the fields are mapped term by term (`fieldAt_image`). `C134_fields`. |
| C135 | Polaritons of rotated samples | Exciton energies and wave functions of the mapped wells are the same numbers (`wellImage_res`, `wellImage_wave`), and the projection of the mapped fields on the mapped dipole is that of the originals (`mapped_dot`, `mapped_polCm`), up to a sign per well which does not change the spectrum. `C135_turned_partial`, `C135_turned_fails` (a plain well with equal strengths along x and y, uncoupled before a quarter turn and coupled after it). |
| C136 | Choice of primitive vectors | The plane waves of both descriptions are exactly the reciprocal lattice vectors inside the cutoff (`gvec_disc` from C18), hence permutations of each other (`gvecAbs_perm`); a permutation of the plane waves renumbers the basis of guided modes (`basisOf_renumber`) and the matrix (`gmeMatIj_renumber`), and the spectrum stays the same. `C136_waves`, `C136_primitive`, `C136_excitons`. |
| C137 | Supercells in PlaneWaveExp | The transform of the repeated shapes is that of the cell at multiples of N1, N2 and zero elsewhere (`layerFt_super`, sums of roots of unity); the matrix of the cell is a decoupled block of that of the supercell (`BlockIn`), its inverse and the final matrix too; the characteristic polynomial divides. `C137_supercell`. |
| C138 | Supercells in GuidedModeExp | The plane waves of the cell embed into those of the supercell in the same order (`superStruct_waves`), the guided modes too (`branch_super`), the matrix is a decoupled block (`gmeMat_block`). `C138_supercell`. `C138_code` composes it with the search for guided modes of the code, run on the wave vectors of each structure. |
| C139 | Timing and its reports | Sums over the loop in closed form (`timing_foldl`), bounds by the span of the readings (`loop_span`). `C139_exact`, `C139_report`, `C139_shares`, `C139_exciton`; `C139_interp_negative` for the negation, `C139_interp_partial`. |
| C140 | Physical constants | Rational arithmetic with bounds of pi to twenty digits. `C140_photon`, `C140_exciton`, `C140_coupling`. |
| C141 | Effective permittivities set by hand, base classes | Induction over sequences of calls from the end. `C141_claddings`, `C141_layers`, `C141_custom`, `C141_classes`. |
| C142 | energies of supercells in `ExcitonSchroedEq` | negation with a concrete well (`C142_supercell_wrong`); partial for wells whose shapes all enter with the same weight: the Hamiltonian of the cell is a decoupled block |
| C143 | gradients of the frequencies of `PlaneWaveExp` | reverse-mode rules composed (`pweBackward`) and paired with derivatives of the samples; eigenvalues followed near a simple spectrum (`eig_branches`); stable selection near distinct frequencies |
| C144 | gradients of the energies of `ExcitonSchroedEq` | as C143 without the square root; look-up at unique differences (`abs`) and Toeplitz blocks (`tbt`) |
| C145 | gradients of the frequencies of `GuidedModeExp` with fixed guided modes | elements are linear in the inverse permittivities (`gmeElem_coef`), transposes of completion and look-up, stable selection near `eig_sigma` (`modes_follow`), `eig_branches` |
| C146 | runs are point by point in the wave vectors | each run is a preparation independent of the wave vectors followed by a loop; the grid of 'exact' guided modes depends on the current wave vector only, that of 'interp' on the longest |
| C147 | texts of solver objects | foldl over histories of `set_run_options`; the loss of an exciton is shown a thousand times too small (negation proved) |
| C148 | re-use of a minimiser | loop invariant relating the object to the epochs of C42-C44 |
| C149 | slope of the bands of `PlaneWaveExp.run` and `ExcitonSchroedEq.run` | The quadratic forms at two wave vectors obey the triangle inequality of a seminorm, written with a free weight (`qform_add`, `pweMat_weights`); eigenvalues compared for every weight give the bound of the square roots (`eigh_sqrt`); the inverse permittivity is bounded by C101. |
| C150 | Gradients of whole runs of the guided-mode solver (fixed effective stack) and of the plane-wave solver with respect to the transforms | the samples are linear (with conjugation) in the values of compute_ft; homogeneity test and invertibility are stable by continuity; then C145 and C143 |
| C151 | frequencies of whole runs are continuous in the transforms and wave vectors, without assuming that they are different | Weyl's inequality for the sorted spectra (squares of the frequencies move by at most N times the largest change of an entry), continuity of inverse and determinant, threshold of homogeneity locally constant |
| C152 | two-sided relative bound of the change of frequencies under changes of permittivities, for both solvers | increments bounded as a quadratic form (C101), ratio of the inverse matrices, min-max with a scaled matrix (`freq_scaled`) |
| C153 | The derivative of a simple frequency with respect to the wave vector is the energy flux of its mode; equal electric and magnetic energies; group velocity of excitons | first-order perturbation theory with only the band in question simple: the eigenvalue nearest to the linear prediction is differentiable and by Weyl's inequality stays at its position in the sorted list; derivative of the matrix in k; Hermitian symmetry of the inverse permittivity |
| C154 | Objectives that are symmetric in degenerate bands have a derivative, which the registered rules compute | the derivative of the trace of a power of a Hermitian matrix, Hermite interpolation and Taylor's theorem give the derivative of the sum of a function over the spectrum; weights which are locally constant functions of the value turn a weighted sum of sorted values into such a sum |
| C155 | Sums over all bands, and which frequencies vanish | the trace of the matrix is the sum of its eigenvalues and depends only on its diagonal; the bounds by uniform media vanish together |
| C156 | Whole runs with `truncate_g='tbt'`: displacement, equivalent shapes, opposite wave vectors | the entries of the block-Toeplitz matrix are the transforms at differences (C19); phases and conjugation carry over to the inverse and to the matrix of the run |
| C157 | Whole runs with `truncate_g='tbt'`: bounds by the guided modes, unpatterned structures | the block-Toeplitz matrix is that of a step function at the indices of the parallelogram (C101, C156); bounds for inverses and eigenvalues as in C111; the shortcut for homogeneous layers is pinned to the inverse of the average |
| C158 | Whole runs with `truncate_g='tbt'`: more guided modes, higher permittivities | as C104 and C105, with the block-Toeplitz matrix as the form of the step function at the indices of the parallelogram (C157) |
| C159 | `numeig` and `eig_sigma` over whole runs | positions of the nearest frequencies for fewer bands are a prefix; sorted lists with a contained multiset are sublists |
| C160 | unit of length and scaled permittivities with `truncate_g='tbt'` | blocks, their storage as real arrays and the number of plane waves are homogeneous of degree zero or one; C126 for the rest |
| C161 | runs with either truncation on the same plane waves | equal sets of plane waves have equal order; one matrix is the transpose of the other; real profiles of guided modes (C108) |
| C162 | runs with `kz_symmetry` and `truncate_g='tbt'` | every block of the basis holds all waves longer than a bound, so the corner of the parallelogram; its image lies outside |
| C163 | runs with `kz_symmetry` and `truncate_g='tbt'` in symmetric crystals | as C121, with the entries of the block-Toeplitz matrix (C19) |

## 6. Disagreements between the code and the properties

Each entry is a theorem about the model of the code as it is.

* C05: `ShapesLayer.add_shape([...])` is not atomic: a bad element leaves the earlier ones
  added (`C05_list_not_atomic`).
* C06: exactly at an interface `z_to_lind` takes the lower layer while `get_eps` takes the
  upper one (`C06_interface_disagreement`).
* C08: `ShapesLayer.get_eps` scans too few periods on oblique lattices (hexagonal included)
  and for shapes far from the home cell (`C08_hexagonal_not_periodic`,
  `C08_far_shape_missed`).
* C10: `bz_path` documents an integer `ns`, but `list(ns)` raises `TypeError`
  (`C10_int_ns_rejected`).
* C16: for a tilted ellipse `(x_cent, y_cent)` are coordinates in the rotated frame, in both
  `compute_ft` and `is_inside`; the documented centre is wrong
  (`C16_ellipse_center_rotated`). For `0 < |G| < 1e-10` the polygon transform ignores the
  position (`C16_tiny_g_no_phase`).
* C39: `compute_exc_ft` divides by the cell area inside the loop over shapes, so with two or
  more shapes the earlier ones are divided repeatedly (`C39_two_shapes_wrong`,
  `C39_actual_weights`).
* C18: `_init_reciprocal_abs` enumerates too few indices on very oblique lattices, so the disc is
  not completely filled (`C18_oblique_incomplete`).
* C19: the samples are kept in two arrays covering complementary quadrants of differences; if only
  one of them is stored as real the matrix takes the type of the first and loses phases
  (`C19_mixed_storage_wrong`); with real storage imaginary parts below the tolerance are dropped
  (`C19_real_storage_error`). The test for a homogeneous layer looks at one quadrant only
  (`C19_homogeneity_test_wrong`).
* C25: `AB_matrices` raises `IndexError` for a stack without inner layers (`C25_no_layers`).
* C26: a root exactly on a sampling point is not found (`C26_root_on_grid_missed`).
* C42: with zero epochs `adam` returns the starting array, which may violate the bounds
  (`C42_zero_epochs`).
* C43: with bounds and a single epoch the returned parameters are clipped after the evaluation
  (`C43_one_epoch_bounded`).
* C45: lists instead of tuples in the list of bounds are accepted whatever their length
  (`C45_lists_accepted`).
* C52: an integer step size raises `AttributeError` (`C52_int_step`).
* C53: a negative count drops the farthest elements (`C53_negative`).
* C56: the Python float `0.0` raises `ZeroDivisionError` instead of `ValueError`
  (`C56_zero_wrong_exception`).
* C68: with bounds and one epoch the caller's starting array is clipped in place
  (`C68_one_epoch_overwrites`).
* C46: for repeated positions the gradient of `extend` is not the adjoint (`C46_repeated`).
* C47: for changes that do not keep the two arrays consistent the pairing fails, since the
  diagonals are read from the second array (`C47_inconsistent`).
* C50: below the first sample the gradient of `interp` extrapolates, above the last one it
  raises `IndexError` (`C50_outside`).
* C69: the gradient of `eig` refers to undefined names (`C69_eig_undefined`).
* C30: with kz_symmetry, a guided mode that is requested but absent at some k makes the
  separation read past the end of the list of modes and raise `IndexError`; C30 covers the calls
  that return.
* C31: the inverse permittivity of the first run is reused when `only_gmodes` changes, the list
  `ind_modes` keeps growing so a run with `kz_symmetry` is separated with the plane waves of the
  first run, and `freqs_im` of an earlier run survives a run with `compute_im=False`
  (`C31_stale_eps`, `C31_stale_ind`, `C31_stale_loss` and two concrete counterexamples).
* C71: the label array is built from `even_count` twice; when the odd sector is larger and a
  mode beyond twice the even size is selected, `run` raises `IndexError` (`C71_index_error`). By
  `C30_sizes` this needs more TE than TM states on the mirror line, as with `gmode_inds=[0]`.
* C33: a plane wave exactly on the light line of a cladding counts as an open channel and its
  density of states divides by zero, so the loss of that mode is not a number
  (`C33_light_line`).
* C37: the wave vector used for the fields is `k + G + (1e-10, 0)`, so `q` is orthogonal to `k +
  G` only up to `1e-10` (`C37_not_exact`), and at `k + G = (-1e-10, 0)` the unit vectors are 0/0
  (`C37_singular`).
* C73: the displacement field lacks the factor `|k+G|` of the curl, so for every mode with two
  plane waves of different `|k+G|` the returned H and D (hence E) are not a solution of
  Maxwell's equations (`C73_not_maxwell`). With the factor restored they are
  (`C73_ampere_partial`, `C73_faraday_partial`).
* C38: the potential matrix of `truncate_g='tbt'` is the transpose of the one of `'abs'`
  (`C38_truncations_transposed`). The energies agree (`C38_transposed_energies`); the stored
  wave functions are complex conjugates of each other.
* C41: with losses the partner of `w` is `-w`, not `-conj w` (`C41_pairs`, `C41_not_conjugate`).
* C76: the block D has the conjugation on the other factor than the couplings, and only the real
  part of its sum enters the diagonal, so with two or more photonic modes the polariton energies
  depend on the phases that the eigensolver happens to return (`C76_not_invariant`).
* C77: the off-diagonal blocks use the variable `D` left over from the loop over the wells, so
  they contain the last well only (`C77_order_matters`).
* C78: `numeig // 2 - 1` energies are kept where there are `numeig // 2`, so the highest
  polariton is lost at every k (`C78_stored_partial`, `C78_upper_lost`).
* C79: `run` writes `kpoints` into the caller's dictionaries (`C79_caller_changed`).
* C57: the frequencies of mode order `m` are attributed to the last wave vectors of the grid; if
  a mode is missing at a wave vector above the one where it first appears, the frequencies below
  it are attributed to the wrong wave vectors (`C57_pairing_wrong`).
* C58: with `k_units=True` a path of zero length gives `nan`, and a single k-point gives the
  abscissa 0, which is not 1 (`C58_degenerate`).
* C59: the line is that of the wave vector `k` itself; for `k` outside the first Brillouin zone
  modes below it may radiate through another diffraction order (`C59_folded`).
* C83: an edge with `dx = -1e-10` exactly has its contribution left out at every `G` along x
  (`C83_dropped_edge`); the general theorems carry a bound on the denominators.
* C86: xy_grid takes the maximum of the components before the absolute value, so the lattice
  a1=(1,0), a2=(0,-1) gives a y grid of zeros (`C86_xy_collapse`).
* C86: the documented single number for periods raises TypeError, since the guard compares a
  shape with the integer 1 (`C86_scalar_periods`).
* C87: a rectangular lattice not aligned with x and y accepts directions that are no mirror axes
  and rejects those that are (`C87_rotated_rectangular`).
* C87: the square lattice given by two vectors has rectangular type, and its diagonal is
  rejected (`C87_square_by_vectors`).
* C87: with the 'tbt' truncation the hexagonal lattice raises ValueError along 30 degrees for
  every cutoff of at least 2/sqrt(3) (`C87_tbt_hexagonal`); the check that would have refused
  this combination is commented out in run.
* C88: `pass_self=True` is unusable with objectives of a fixed number of arguments: the first
  evaluation omits the minimiser and the later ones pass it (`C88_pass_self`).
* C88: with rejected bounds the parameters of the object are already replaced by the starting
  point (`C88_bad_bounds`).
* C89: `generate_gds_raster(..., cell_bound=False)` raises NameError, and `generate_gds` cannot
  export ellipses and Fourier shapes (`C89_raster`, `C89_layers`).
* C90: `ft2square` returns for no input: `nG1` is never assigned (`C90_ft2square`). The product
  of `vjp_maker_num` is flat, whatever the shape of the argument.
* C92: multiplying all lengths by a factor is not an exact symmetry of the frequencies, since
  the transforms of circles and polygons contain absolute regularisers (1e-10, 1e-50); no such
  theorem is claimed.
* C93: the modes are exact roots of the dispersion relation and the layer integrals are exact;
  the interpolation between grid wave vectors (C27, C28) and the 1e-20 regulariser of the
  integrals (C63) are bounded in those properties and not included here.
* C95: proved for truncate_g='abs'. With 'tbt' the arrays are stored as real numbers when their
  imaginary parts are below 1e-10 of the real parts, so a displaced structure may be stored with
  a different rounding. The companion statement w(-k) = w(k) is not exact for the guided-mode
  expansion, because delta_gx is added to the x component of g + k and shifts both k and -k the
  same way.
* C96, C97: for exact guided modes and exact integrals over the layers. The integrals of the
  code differ from these by the 1e-20 regulariser (C63) and the modes by the interpolation in
  wave number (C27, C28); the regulariser makes the inner integral not exactly even, so the
  statements would hold only up to that error.
* C98: for `truncate_g='tbt'` in the guided-mode expansion the coefficients are stored with
  imaginary parts dropped if small (C19); the theorem covers the case that nothing or only zeros
  are dropped.
* C107: `GuidedModeExp._compute_ft_abs` puts the transform at G_j - G_i into row i and column j,
  where the fields are series of exp(+iG.r), so that E and D are related by the permittivity
  inverted about the origin; `C107_gme` states what holds, `C107_gme_displaced` shows a
  structure (holes displaced from the origin, permittivities 12 and 1) where a uniform electric
  field comes with a displacement off by more than 1/2 in one Fourier component,
  `C107_gme_partial` is the claim for inversion-symmetric structures. Frequencies are not
  affected (the two matrices are complex conjugates).
* C110: with the default `truncate_g='abs'` the potential matrix has V(G'-G) where the equation
  needs V(G-G'), so the wave functions belong to the pattern inverted in the origin. The
  energies are unaffected (C109); the wave functions are right for patterns symmetric under
  inversion (`C110_abs_partial`) and wrong for the others (`C110_abs_displaced`). With 'tbt'
  they are right (`C110_tbt`).
* C110: `get_pot_xy` with `truncate_g='tbt'` passes `ft_coeffs[0]`, one number, to `ftinv`,
  which indexes it: IndexError for every input (`C110_potential_tbt`).
* C112: false in general. The off-diagonal blocks use the block `D` of the last well only
  (pol.py 213-216, 232-237), so the quadratic term of the other wells is not balanced.
  `C112_one_mode`: with one photonic mode the energies are all real exactly if the photon energy
  is at least twice the sum of |C|^2/E over all wells but the last; `C112_complex` is an
  instance with an imaginary energy. Proved: any problem whose photon energies exceed four times
  the sum of all |C|^2/E (`C112_weak_partial`), and one well with real blocks `D`
  (`C112_one_well_partial`).
* C114: with periodic=False in the xy plane the phase is computed from the two one-dimensional
  grids without meshing them (viz.py 1215-1217): grids of different lengths raise ValueError
  (`C114_xy_unequal`) and otherwise the pixel at (x_s, y_r) gets the phase of (x_s, y_s)
  (`C114_xy_phase`, `C114_xy_wrong`). `f *= kenv` works in place, so a repeated component gets
  the phase again (`C114_repeated`).
* C115: `np.max(Q[Q < Q_clip])` (viz.py 125) raises ValueError when no quality factor is below
  `Q_clip`, in particular for lossless bands (`C115_lossless`); `bands` of a `PlaneWaveExp`
  object raises AttributeError with its default `cone=True` (`C115_errors`).
* C116: `structure` and `eps_ft` look up the middle of a layer; one of zero thickness is shown
  as the layer above (`C116_zero_thickness`) or below (`C116_eps_ft_wrong_layer`). The upper
  cladding is looked up at 5e9 in `eps_ft`.
* C116: `eps_ft` and `pot_ft` use an undefined name `ars` when `gridspec` and `fig` are given
  (viz.py 951, 1077; `C116_eps_ft_errors`).
* C117: the losses of single modes of a degenerate group depend on the eigenvectors the solver
  happens to return, so that invariance is claimed for simple eigenvalues only.
* C118: with the default `delta_gabs=1e-15` the grid points are not the wave vectors themselves
  even with `gmode_compute='exact'`, so that frequencies and fields are interpolated; the
  theorem is about `delta_gabs=0`.
* C118: the norm of the modes is the exact one; the code's norm adds 1e-20 to the arguments of
  the integrals over the layers (C63).
* C119, C120: for plane waves shorter than 1e-10 (the zone centre with the default `delta_gx`)
  the amplitudes solve the boundary conditions at 1e-10, as computed (slab_modes.py 490), while
  chi is taken at the plane wave itself (gme.py 351).
* C121: for directions other than the x axis the mirror fixes k + (delta_gx, 0) only if delta_gx
  = 0; with the default 1e-15 the symmetry is not exact. Polygons are left out since their
  regularised transforms are not exactly mirror covariant.
* C121: separation needs all modes of gmode_inds (C30_missing_mode); with 'both' and more odd
  than even states IndexError may be raised (C71).
* C122: circles are not rescaled exactly (their transform adds 1e-10 to |G|), and polygons are
  neither rotated nor rescaled exactly (regularised slopes); they are left out of `C122_shapes`.
  The parallelogram of plane waves of the hexagonal lattice breaks its six-fold symmetry
  (`C122_hexagonal`).
* C123: the part on symmetric crystals is proved for the exact integrals, because the
  regularised ones make the matrix depend on the order of the plane waves (C106); the part on
  rotated structures holds for both.
* C124: with `pad` the copies displaced along both lattice vectors are not drawn (`C124_corner`:
  a circle at the corner of the square cell), and ellipses cannot be drawn (`C124_ellipse`).
* C130: after a call of `run` that raises, an object shows the wave vectors of that call with
  the energies of an earlier one (`C130_mixed`), in all four classes.
* C130: `run` with no wave vectors raises `UnboundLocalError` after the empty results were
  stored, except for `GuidedModeExp` (`C130_empty`).
* C131: with `val='re'` or `'im'`, `viz.wavef` shows the periodic part of the wave function,
  without its Bloch phase (`C131_re_periodic`); the density is right (`C131_density`).
* C133: with two or more shapes in a cell whose area is not 1, the exciton energies depend on
  the unit of length, as every round of the loop over the shapes divides all coefficients
  accumulated so far by the area (exc.py 239-285 with layer.py `compute_exc_ft`).
  `C133_similar_fails` is a pair of wells which differ only by the unit; the partial theorems
  assume one shape, or area 1.
* C135: a well with equal oscillator strengths along x and y is not isotropic in the code: the
  coupling is the projection of the field on the single direction of the square roots of the
  strengths (pol.py 156-180). `C135_turned_fails` is a plain well whose exciton does not couple
  to a mode at one wave vector and does after a quarter turn of the whole sample; the partial
  theorem maps the dipole with the sample.
* C139: with `gmode_compute='interp'` the guided modes are computed before the loop over wave
  vectors, but their time is subtracted from that of the construction of the matrices (gme.py
  1166) as if they were computed in it; the stored and printed time can be negative
  (`C139_interp_negative`).
* C141: a `FreeformLayer` can never be created: its constructor refers to the undefined name
  `eps_b` (layer.py 217).
* C142: false. `compute_exc_ft` divides by the area of the cell inside the loop over the shapes,
  so the potential of a supercell is not that of the cell: doubling a cell of area 1 with one
  dot changes the lowest energy from `x` to `3x/4` with one plane wave (`C142_supercell_wrong`).
  True for wells in which all shapes have the same weight (`C142_supercell_partial`).
* C147: `ExcitonSchroedEq.__repr__` shows `loss * 1e3` (that is, meV) with the unit ueV;
  `C147_loss_fails` for every non-zero loss, `C147_exc_partial` for everything else.
* C154: without the condition on the weights the statement is false (`C154_fails`): an objective
  of the lower one of two degenerate energies has no derivative, and the rules return a number
  which depends on the choice of eigenvectors.
* C162: the whole-run form of the remark on C87. In a hexagonal lattice with 'tbt' no run that
  contains the centre of the zone with the direction 30 degrees returns, as soon as there is more
  than one plane wave (`C162_hexagonal`). Where the parallelogram has the mirror the combination
  works (`C163_both`, `C163_accepts`).

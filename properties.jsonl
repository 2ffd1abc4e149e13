{"id": "C01", "title": "Layers tile the z axis without gaps or overlaps", "statement": "After any sequence of PhotCryst.add_layer / add_qw / add_shape calls, accepted or rejected, the lower cladding ends at z=0, every layer begins exactly where the layer below it ends, its thickness is the d that was passed, and the upper cladding begins where the topmost layer ends.", "quantifier": "every finite history of structure-building calls with arbitrary arguments", "why_tests_cant": "the number and interleaving of building calls is unbounded; tests build a handful of fixed stacks", "anchors": ["legume/phc/phc.py:PhotCryst.__init__", "legume/phc/phc.py:PhotCryst.add_layer", "legume/phc/phc.py:PhotCryst.add_qw"]}
{"id": "C02", "title": "Each z belongs to exactly one region and get_eps reports that region", "statement": "For layers of non-negative thickness, PhotCryst.get_eps at height z with -1e10<=z<1e10 reports the permittivity of the unique region (cladding or layer) whose half-open interval [z_min,z_max) contains z, and reports 0 outside of [-1e10,1e10).", "quantifier": "every structure reachable by the building API with non-negative thicknesses of total below 1e10, every point (x,y,z)", "why_tests_cant": "z ranges over a continuum and the stack over all sizes", "anchors": ["legume/phc/phc.py:PhotCryst.get_eps"]}
{"id": "C03", "title": "get_eps stays inside get_eps_bounds and the bounds are tight", "statement": "Inside the simulated z range, every value reported by PhotCryst.get_eps lies between the two numbers of PhotCryst.get_eps_bounds, and both numbers are the permittivity of a background or of a shape actually present in the structure.", "quantifier": "every reachable structure and every point", "why_tests_cant": "points and structures are unbounded; a test samples a grid", "anchors": ["legume/phc/phc.py:PhotCryst.get_eps", "legume/phc/phc.py:PhotCryst.get_eps_bounds", "legume/phc/layer.py:ShapesLayer.get_eps"]}
{"id": "C04", "title": "Average permittivity is the area-weighted sum whatever the build history", "statement": "After any history of add_shape calls on a layer (single shapes, lists, calls that raise midway), the layer's eps_avg equals eps_b + sum over its shapes of (eps_shape-eps_b)*area/cell_area, hence does not depend on the order or grouping of the calls.", "quantifier": "every finite history of add_shape calls", "why_tests_cant": "orderings and groupings grow without bound", "anchors": ["legume/phc/layer.py:ShapesLayer.add_shape"]}
{"id": "C05", "title": "A rejected building call leaves the structure unchanged", "statement": "If add_layer, add_qw or add_shape raises, the structure is the same as before the call.", "quantifier": "every structure and every rejected call", "why_tests_cant": "needs all failing inputs in all states", "anchors": ["legume/phc/phc.py:PhotCryst.add_layer", "legume/phc/phc.py:PhotCryst.add_qw", "legume/phc/phc.py:PhotCryst.add_shape", "legume/phc/layer.py:ShapesLayer.add_shape"]}
{"id": "C06", "title": "z_to_lind finds the region containing z", "statement": "utils.z_to_lind(phc,z) returns the index (claddings first and last) of the unique region whose interval (z_min,z_max] contains z, for every z on the real line, and names the same region as get_eps at every z which is not exactly an interface.", "quantifier": "every reachable structure with non-negative thicknesses and every z", "why_tests_cant": "continuum of z, unbounded stacks", "anchors": ["legume/utils.py:z_to_lind", "legume/phc/phc.py:PhotCryst.get_eps"]}
{"id": "C07", "title": "Quantum wells are accepted exactly inside the slab", "statement": "add_qw succeeds iff z is strictly above the lower cladding and strictly below the upper cladding, and every accepted quantum well stays located in a true layer (never a cladding) after any further building calls with non-negative thicknesses.", "quantifier": "every history of building calls", "why_tests_cant": "a later add_layer could move a cladding past an accepted well; requires an invariant over histories", "anchors": ["legume/phc/phc.py:PhotCryst.add_qw", "legume/utils.py:z_to_lind"]}
{"id": "C08", "title": "The in-plane permittivity map is periodic with the lattice", "statement": "ShapesLayer.get_eps(x,y) takes the permittivity of the last added shape any of whose lattice translates covers the point, and the background if there is none; hence it repeats under every lattice translation.", "quantifier": "every lattice, shape list and point", "why_tests_cant": "infinitely many translates and points", "anchors": ["legume/phc/layer.py:ShapesLayer.get_eps"]}
{"id": "C09", "title": "Reciprocal basis is dual to the primitive basis", "statement": "For every non-collinear pair of primitive vectors, Lattice produces b1,b2 with a_i.b_j = 2*pi*delta_ij and ec_area*bz_area = 4*pi^2; therefore exp(i G.R)=1 for all integer combinations G of b1,b2 and R of a1,a2.", "quantifier": "all non-collinear primitive vectors, all integers", "why_tests_cant": "continuum of lattices", "anchors": ["legume/phc/lattice.py:Lattice.__init__", "legume/phc/lattice.py:Lattice._parse_input"]}
{"id": "C10", "title": "Band paths visit the requested points on straight segments", "statement": "Lattice.bz_path(pts,ns) returns 1+sum(ns) k-points, places the j-th requested point exactly at the index reported for it, and every k-point between two requested points lies on the straight segment joining them, evenly spaced.", "quantifier": "all point lists of any length and all positive segment counts", "why_tests_cant": "lists of arbitrary length", "anchors": ["legume/phc/lattice.py:Lattice.bz_path", "legume/phc/lattice.py:Lattice._parse_point"]}
{"id": "C11", "title": "Named high-symmetry points sit on the Brillouin-zone boundary", "statement": "For the square and hexagonal lattices, the points that bz_path resolves from 'X','M','K' are nearest to Gamma but tied with at least one (edge midpoint) or two (corner) further reciprocal lattice points, among ALL reciprocal lattice points.", "quantifier": "all reciprocal lattice points (infinitely many integers)", "why_tests_cant": "membership in the zone quantifies over an infinite lattice", "anchors": ["legume/phc/lattice.py:Lattice._parse_point"]}
{"id": "C12", "title": "Fourier transforms of shapes come from real functions", "statement": "For Circle, Ellipse and Poly shapes compute_ft(-G) is the complex conjugate of compute_ft(G) for every G.", "quantifier": "all shapes, all G", "why_tests_cant": "continuum of parameters; polygons with any number of vertices", "anchors": ["legume/phc/shapes.py:Circle.compute_ft", "legume/phc/shapes.py:Ellipse.compute_ft", "legume/phc/shapes.py:Poly.compute_ft"]}
{"id": "C13", "title": "Polygon area equals the shoelace area and orientation is enforced", "statement": "Poly closes the vertex list, reports the shoelace area, equals the zero Fourier component, is independent of which vertex is listed first and of a rigid translation, and a polygon listed clockwise (negative shoelace area) is rejected with ValueError.", "quantifier": "polygons with any number of vertices", "why_tests_cant": "arbitrary vertex lists", "anchors": ["legume/phc/shapes.py:Poly.__init__", "legume/phc/shapes.py:Poly.compute_ft"]}
{"id": "C14", "title": "Poly.rotate is a rigid rotation about the centre of mass", "statement": "Rotating a polygon keeps its area and its centre of mass, rotating by a then by b equals rotating by a+b, and rotating by 0 changes nothing.", "quantifier": "all polygons of non-zero area and all angles", "why_tests_cant": "continuum of angles and polygons", "anchors": ["legume/phc/shapes.py:Poly.rotate"]}
{"id": "C15", "title": "Square and Hexagon have the advertised area and centre", "statement": "Square(x,y,a) is a polygon of area a^2 centred at (x,y), Hexagon(x,y,a) one of area 3*sqrt(3)/2*a^2 centred at (x,y), both accepted by the orientation check for every a.", "quantifier": "all side lengths and centres", "why_tests_cant": "continuum of parameters", "anchors": ["legume/phc/shapes.py:Square", "legume/phc/shapes.py:Hexagon"]}
{"id": "C16", "title": "Translating a shape multiplies its Fourier transform by a phase", "statement": "Moving a circle or polygon by t multiplies compute_ft(G) by exp(+-i G.t) (with the sign used by the package) for every G.", "quantifier": "all shapes, all translations, all G", "why_tests_cant": "continuum", "anchors": ["legume/phc/shapes.py:Circle.compute_ft", "legume/phc/shapes.py:Poly.compute_ft"]}
{"id": "C17", "title": "The 'tbt' plane-wave set is a full symmetric parallelogram", "statement": "With truncate_g='tbt' the plane-wave set has exactly (2*n1max+1)*(2*n2max+1) vectors, all distinct, contains 0 in the middle position, and reversing the order of the set negates every vector.", "quantifier": "all lattices and gmax", "why_tests_cant": "set size is unbounded", "anchors": ["legume/gme/gme.py:GuidedModeExp._init_reciprocal_tbt"]}
{"id": "C18", "title": "The 'abs' plane-wave set is the complete disc", "statement": "With truncate_g='abs' every plane wave satisfies |G|<=gmax and every reciprocal lattice vector with |G|<=gmax is included, so the basis has the point symmetry of the lattice.", "quantifier": "all lattices and gmax", "why_tests_cant": "needs all integer pairs", "anchors": ["legume/gme/gme.py:GuidedModeExp._init_reciprocal_abs"]}
{"id": "C19", "title": "The permittivity matrix assembled with 'tbt' is the Hermitian difference matrix", "statement": "The matrix assembled by toeplitz_block from the 2*N Fourier samples has entry FT(g_I-g_J) at (I,J) for every pair of plane waves, and is Hermitian, for real permittivities.", "quantifier": "all truncation sizes and all index pairs", "why_tests_cant": "index arithmetic over unbounded blocks", "anchors": ["legume/gme/gme.py:GuidedModeExp._compute_ft_tbt", "legume/gme/gme.py:GuidedModeExp._construct_sym_mat", "legume/utils.py:toeplitz_block"]}
{"id": "C20", "title": "The permittivity matrix assembled with 'abs' is the Hermitian difference matrix", "statement": "The matrix assembled from half of the sorted distinct differences and their conjugates has entry FT(G_j-G_i) at (i,j) for every pair of plane waves, i.e. filling the other half by conjugation loses nothing.", "quantifier": "all finite plane-wave sets", "why_tests_cant": "unbounded set sizes", "anchors": ["legume/gme/gme.py:GuidedModeExp._compute_ft_abs", "legume/gme/gme.py:GuidedModeExp._construct_sym_mat"]}
{"id": "C21", "title": "'tbt' and 'abs' give the same physics on the same plane waves", "statement": "For the same plane-wave list the permittivity matrices assembled by the two truncation modes are transposes (equivalently complex conjugates) of each other, hence have the same spectrum.", "quantifier": "all plane-wave lists common to both", "why_tests_cant": "unbounded sizes", "anchors": ["legume/gme/gme.py:GuidedModeExp._compute_ft_tbt", "legume/gme/gme.py:GuidedModeExp._compute_ft_abs"]}
{"id": "C22", "title": "3-layer and general dispersion functions have the same guided modes", "statement": "For three-layer slabs the closed-form TE/TM dispersion function used as a shortcut vanishes at exactly the frequencies where the general transfer-matrix function vanishes.", "quantifier": "all permittivities, thicknesses, wave vectors, frequencies with non-zero chi", "why_tests_cant": "continuum of parameters", "anchors": ["legume/gme/slab_modes.py:D22_TE", "legume/gme/slab_modes.py:D22_TM", "legume/gme/slab_modes.py:D22s_vec"]}
{"id": "C23", "title": "Subdividing a layer does not change the guided modes", "statement": "Splitting a homogeneous layer into two of the same permittivity and the same total thickness leaves the dispersion function unchanged, for stacks of any number of layers.", "quantifier": "all stacks of any length and all split positions", "why_tests_cant": "unbounded stacks", "anchors": ["legume/gme/slab_modes.py:D22_TE", "legume/gme/slab_modes.py:D22_TM", "legume/gme/slab_modes.py:S_T_matrices_TE"]}
{"id": "C24", "title": "Turning the stack upside down does not change the guided modes", "statement": "Reversing the order of all layers multiplies the dispersion function by a non-zero factor, so its zeros are unchanged.", "quantifier": "all stacks of any length", "why_tests_cant": "unbounded stacks", "anchors": ["legume/gme/slab_modes.py:D22_TE", "legume/gme/slab_modes.py:D22_TM"]}
{"id": "C25", "title": "Mode coefficients satisfy Maxwell's interface conditions", "statement": "The coefficients returned by AB_matrices describe a field whose tangential components are continuous at every interface (TE: H-field amplitude sum and chi-weighted difference; TM: with the 1/eps weight), with no incoming wave from the lower cladding; and when the dispersion function vanishes, no growing wave in the upper cladding either.", "quantifier": "all stacks of any number of layers", "why_tests_cant": "unbounded stacks", "anchors": ["legume/gme/slab_modes.py:AB_matrices"]}
{"id": "C26", "title": "Guided-mode search returns bracketed, increasing roots inside the light-line window", "statement": "guided_mode_given_g returns frequencies which lie between the light lines (within the documented offset), in increasing order, one per strict sign change of the dispersion function on its sampling grid.", "quantifier": "all dispersion functions, all grids", "why_tests_cant": "the function and grid are arbitrary", "anchors": ["legume/gme/slab_modes.py:guided_mode_given_g"]}
{"id": "C27", "title": "Analytic layer integrals are the true integrals", "statement": "I_alpha(a,d) equals the integral of exp(i a t) over a layer of thickness d centred at 0, and J_alpha(a) equals the integral over the half line for decaying exponents.", "quantifier": "all complex a (non-zero / decaying) and d", "why_tests_cant": "continuum", "anchors": ["legume/gme/slab_modes.py:I_alpha", "legume/gme/slab_modes.py:J_alpha"]}
{"id": "C28", "title": "Guided-mode matrix blocks are mutually adjoint", "statement": "Exchanging the two modes conjugates the coupling element computed by mat_te_te, mat_tm_tm and the mat_te_tm / mat_tm_te pair, whenever the inverse-permittivity matrix is Hermitian; so the Hermitian completion of the computed upper triangle is exactly the full matrix.", "quantifier": "all stacks of any number of layers, all modes", "why_tests_cant": "unbounded layers and complex parameters", "anchors": ["legume/gme/matrix_elements.py:mat_te_te", "legume/gme/matrix_elements.py:mat_tm_tm", "legume/gme/matrix_elements.py:mat_te_tm", "legume/gme/matrix_elements.py:mat_tm_te", "legume/gme/gme.py:GuidedModeExp._construct_mat"]}
{"id": "C29", "title": "The assembled GME Hamiltonian is Hermitian", "statement": "GuidedModeExp builds a Hermitian matrix whatever blocks are computed, and keeps the computed upper triangle (with the real part of the diagonal).", "quantifier": "all block contents, any mode counts", "why_tests_cant": "matrices of arbitrary size", "anchors": ["legume/gme/gme.py:GuidedModeExp._construct_mat"]}
{"id": "C30", "title": "kz-symmetry separation is an orthogonal change of basis which splits the problem", "statement": "The transformation used with kz_symmetry is orthogonal, diagonalises the mirror operator into even (+1) and odd (-1) sectors, and when the Hamiltonian commutes with the mirror the two sectors decouple exactly, so the union of even and odd spectra is the full spectrum.", "quantifier": "all mode pairings of any size", "why_tests_cant": "arbitrary basis sizes", "anchors": ["legume/gme/gme.py:GuidedModeExp._separate_hamiltonian_dense", "legume/gme/gme.py:GuidedModeExp._separate_hamiltonian_sparse"]}
{"id": "C31", "title": "Results of run() depend only on the structure and the options of that call", "statement": "Calling GuidedModeExp.run a second time with options o gives the results a fresh object would give with o, whatever runs preceded it.", "quantifier": "all histories of run calls", "why_tests_cant": "histories are unbounded", "anchors": ["legume/gme/gme.py:GuidedModeExp.run", "legume/gme/gme.py:GuidedModeExp.compute_eps_inv", "legume/gme/gme.py:GuidedModeExp.set_run_options"]}
{"id": "C32", "title": "Reported frequencies are real, non-negative and ordered", "statement": "For every k-point, run() reports numeig real non-negative frequencies in non-decreasing order whose squared (times 4 pi^2) values are eigenvalues of the Hamiltonian.", "quantifier": "all Hermitian eigenproblems", "why_tests_cant": "arbitrary matrices", "anchors": ["legume/gme/gme.py:GuidedModeExp.run", "legume/pwe/pwe.py:PlaneWaveExp.run"]}
{"id": "C33", "title": "Radiative losses are never negative and vanish below the light line", "statement": "freqs_im is non-negative for every mode, and a mode with no open radiation channel has exactly zero imaginary part.", "quantifier": "all modes and couplings", "why_tests_cant": "continuum of complex couplings", "anchors": ["legume/gme/gme.py:GuidedModeExp._compute_rad_components", "legume/gme/gme.py:GuidedModeExp.run_im"]}
{"id": "C34", "title": "The TE/TM unbalance is a fraction", "statement": "unbalance_sp lies in [0,1], and is 0.5 exactly by convention for modes without losses.", "quantifier": "all non-negative loss arrays", "why_tests_cant": "continuum", "anchors": ["legume/gme/gme.py:GuidedModeExp.run_im"]}
{"id": "C35", "title": "Radiative-loss pieces add up", "statement": "The total coupling loss equals the sum of the contributions of the two claddings and the two polarisations, in any order.", "quantifier": "all modes, any number of radiation channels", "why_tests_cant": "arbitrary channel lists", "anchors": ["legume/gme/gme.py:GuidedModeExp._compute_rad_components"]}
{"id": "C36", "title": "Plane-wave-expansion matrices are Hermitian and non-negative", "statement": "For a Hermitian positive inverse permittivity the TE and TM matrices of PlaneWaveExp are Hermitian and positive semidefinite, so their frequencies are real.", "quantifier": "all plane-wave sets and k", "why_tests_cant": "arbitrary sizes", "anchors": ["legume/pwe/pwe.py:PlaneWaveExp.run"]}
{"id": "C37", "title": "PWE fields are transverse", "statement": "The polarisation vectors used by PlaneWaveExp to reconstruct fields are unit vectors orthogonal to k+G and to each other for every k+G different from 0, so div H = 0 for every plane wave.", "quantifier": "all k, G", "why_tests_cant": "continuum", "anchors": ["legume/pwe/pwe.py:PlaneWaveExp.ft_field_xy"]}
{"id": "C38", "title": "Exciton energies are real plus a uniform loss", "statement": "For a real periodic potential ExcitonSchroedEq builds a Hermitian matrix whose eigenvalues are shifted rigidly by E0 and by i*loss, so all reported imaginary parts are equal to the loss.", "quantifier": "all potentials and truncations", "why_tests_cant": "arbitrary sizes", "anchors": ["legume/exc/exc.py:ExcitonSchroedEq.run"]}
{"id": "C39", "title": "The exciton potential is the sum of its shapes' potentials", "statement": "The Fourier coefficients of the quantum-well potential are the sum over the shapes of V_shape*FT_shape/cell_area for any number of shapes.", "quantifier": "any number of shapes", "why_tests_cant": "unbounded shape lists", "anchors": ["legume/phc/layer.py:ShapesLayer.compute_exc_ft"]}
{"id": "C40", "title": "Excitonic and photonic fractions add to the norm", "statement": "For every polariton the excitonic and photonic fractions are non-negative and add up to the squared norm of its vector (1 for normalised vectors).", "quantifier": "all vectors of any length", "why_tests_cant": "arbitrary sizes", "anchors": ["legume/pol/pol.py:HopfieldPol._calculate_fraction"]}
{"id": "C41", "title": "The polariton spectrum comes in +- pairs", "statement": "The Hopfield matrix has, with every eigenvalue w, also -conj(w), so discarding the negative half loses no physical polariton.", "quantifier": "all couplings, any number of photonic and excitonic modes", "why_tests_cant": "arbitrary sizes", "anchors": ["legume/pol/pol.py:HopfieldPol._construct_Hopfield", "legume/pol/pol.py:HopfieldPol.run"]}
{"id": "C42", "title": "adam respects the bounds", "statement": "With bounds given, every parameter vector returned by Minimize.adam lies inside the bounds for any number of epochs, and all evaluations after the first one are made at in-bounds parameters.", "quantifier": "all objectives, gradients, starting points, numbers of epochs", "why_tests_cant": "arbitrary objective and epochs", "anchors": ["legume/minimize.py:Minimize.adam"]}
{"id": "C43", "title": "adam's objective history matches its parameters", "statement": "Minimize.adam returns exactly Nepochs objective values, the i-th being the objective at the i-th iterate, and (without bounds) the returned parameters are those at which the last recorded objective value was computed.", "quantifier": "all objectives, any number of epochs", "why_tests_cant": "arbitrary epochs", "anchors": ["legume/minimize.py:Minimize.adam"]}
{"id": "C44", "title": "adam's step is bias-corrected and bounded", "statement": "With a constant gradient g every Adam step equals g/(|g|+eps) irrespective of the epoch and of beta1, beta2; the running second moment is never negative.", "quantifier": "all gradients, all epochs, all 0<=beta<1", "why_tests_cant": "arbitrary epochs", "anchors": ["legume/minimize.py:Minimize._step_adam"]}
{"id": "C45", "title": "Bounds are parsed or rejected", "statement": "Minimize accepts bounds=None, a two-element list, or a list of pairs with one pair per parameter, and turns anything else into a ValueError; the parsed value has one (lb,ub) pair per parameter.", "quantifier": "all bounds arguments", "why_tests_cant": "all shapes of input", "anchors": ["legume/minimize.py:Minimize._parse_bounds"]}
{"id": "C46", "title": "The gradient of extend is the adjoint of extend", "statement": "The vjp registered for extend satisfies <v, extend(x)> = <vjp(v), x> for index lists without repetition, of any length.", "quantifier": "all arrays, all duplicate-free index lists", "why_tests_cant": "arbitrary sizes", "anchors": ["legume/primitives.py:extend_ag", "legume/utils.py:extend"]}
{"id": "C47", "title": "The gradients of toeplitz_block give the true directional derivative", "statement": "For every direction that keeps the Hermitian-Toeplitz data consistent, the sum of the two registered vjps paired with the direction equals the vjp vector paired with the change of the assembled matrix.", "quantifier": "all sizes and directions", "why_tests_cant": "arbitrary sizes", "anchors": ["legume/primitives.py:toeplitz_block_ag"]}
{"id": "C48", "title": "The eigenvalue gradient of eigh is the Hellmann-Feynman derivative", "statement": "For Hermitian perturbations dA the registered eigh vjp (eigenvalue part) pairs with dA to give sum_n w_n <v_n|dA|v_n>.", "quantifier": "all Hermitian matrices of any size", "why_tests_cant": "arbitrary sizes", "anchors": ["legume/primitives.py:vjp_maker_eigh"]}
{"id": "C49", "title": "The gradient of inv is exact", "statement": "The vjp registered for the matrix inverse is the adjoint of the derivative of the inverse, for every invertible matrix.", "quantifier": "all invertible matrices", "why_tests_cant": "arbitrary sizes", "anchors": ["legume/primitives.py:vjp_maker_inv"]}
{"id": "C50", "title": "The gradient of interp is the adjoint of linear interpolation", "statement": "For query points inside the sampled interval the vjp of interp with respect to the sampled values pairs exactly with the interpolation map.", "quantifier": "all sample grids and query points", "why_tests_cant": "arbitrary sizes", "anchors": ["legume/primitives.py:interp"]}
{"id": "C51", "title": "The gradient of fsolve obeys the implicit function theorem", "statement": "The vjp of fsolve with respect to a parameter is -f_p/f_x evaluated at the root, which is the derivative of the root whenever the root depends differentiably on the parameter.", "quantifier": "all differentiable functions with f_x != 0", "why_tests_cant": "all functions", "anchors": ["legume/primitives.py:vjp_factory_fsolve"]}
{"id": "C52", "title": "Numerical gradient is exact on affine functions", "statement": "grad_num returns the exact gradient for every affine function and every non-zero step, for arrays of any size, and leaves the argument unchanged.", "quantifier": "all affine functions, any dimension", "why_tests_cant": "arbitrary dimension", "anchors": ["legume/utils.py:grad_num"]}
{"id": "C53", "title": "find_nearest returns the N nearest elements", "statement": "find_nearest returns min(N,len) distinct valid indices such that no element left out is strictly closer to the value than a returned one, in order of distance.", "quantifier": "all arrays, values, N", "why_tests_cant": "arbitrary arrays", "anchors": ["legume/utils.py:find_nearest"]}
{"id": "C54", "title": "Scattering-matrix composition is associative with identity", "statement": "RedhefferStar is associative, has the pass-through matrix as two-sided identity, and agrees with multiplication of transfer matrices, wherever the denominators do not vanish.", "quantifier": "all 2x2 scattering matrices", "why_tests_cant": "continuum", "anchors": ["legume/utils.py:RedhefferStar"]}
{"id": "C55", "title": "Inverse Fourier transform of conjugate-symmetric data is real, periodic and counts every G once", "statement": "ftinv is independent of repeated reciprocal vectors, returns real values for a conjugate-symmetric coefficient set, and is periodic with the lattice.", "quantifier": "all coefficient sets", "why_tests_cant": "arbitrary sizes", "anchors": ["legume/utils.py:ftinv"]}
{"id": "C56", "title": "from_freq_to_e converts or rejects", "statement": "from_freq_to_e(a) raises ValueError exactly for a<=0, otherwise returns h*c/a, positive and strictly decreasing in a, warning exactly outside [5e-8,5e-6].", "quantifier": "all real a", "why_tests_cant": "continuum", "anchors": ["legume/utils.py:from_freq_to_e"]}
{"id": "C57", "title": "Guided-mode bookkeeping keeps modes attached to their wave vectors", "statement": "The frequencies and coefficients stored per guided-mode order are paired with the wave-vector indices at which that mode exists: the mode order m at wave vector index i is present iff at least m+1 modes exist there.", "quantifier": "all lists of mode counts", "why_tests_cant": "arbitrary lists", "anchors": ["legume/gme/gme.py:GuidedModeExp._get_guided", "legume/gme/gme.py:GuidedModeExp._compute_guided"]}
{"id": "C58", "title": "The plotted k axis is monotone and normalised", "statement": "viz.calculate_x returns one abscissa per k-point starting at 0 and non-decreasing; with k_units=True it ends at 1 and its increments are proportional to the distances between successive k-points.", "quantifier": "all paths of any length", "why_tests_cant": "arbitrary lists", "anchors": ["legume/viz.py:calculate_x"]}
{"id": "C59", "title": "The light line separates radiative from guided modes consistently", "statement": "The plotted light line is the lowest light line of the two claddings: a frequency lies above it iff at least one cladding has an open propagating channel at that in-plane wave vector.", "quantifier": "all k and cladding permittivities", "why_tests_cant": "continuum", "anchors": ["legume/viz.py:_calculate_LL"]}
{"id": "C60", "title": "Backend switching is all-or-nothing", "statement": "set_backend/set_print_backend select exactly the named backend, and an unknown name raises leaving the current backend in force, over any sequence of calls.", "quantifier": "all call histories and names", "why_tests_cant": "histories are unbounded", "anchors": ["legume/backend.py:set_backend", "legume/print_backend.py:set_print_backend"]}
{"id": "C61", "title": "Regions contain exactly what the calls put there", "statement": "After any history of add_layer/add_shape/add_qw calls, the background permittivity and the ordered list of shapes of every region (claddings and layers) are exactly those recorded from the calls by an independent bookkeeper; add_shape returns normally iff it addresses an existing region and only shapes are handed over; the layers' z_mid is the middle of their interval.", "quantifier": "all histories of building calls", "why_tests_cant": "histories are unbounded and mix accepted and rejected calls", "anchors": ["legume/phc/phc.py:PhotCryst.add_shape", "legume/phc/phc.py:PhotCryst.add_layer", "legume/phc/layer.py:ShapesLayer.add_shape"]}
{"id": "C62", "title": "FourierShape rejects exactly negative radii and is always correctly oriented", "statement": "FourierShape raises ValueError exactly when the radius is negative at one of the sampled angles; otherwise it succeeds, its vertices lie at distance R(phi) in direction phi from the centre, and its area is sin(2 pi/n)/2 * sum R_i R_{i+1}.", "quantifier": "all coefficient lists, centres and numbers of points", "why_tests_cant": "arbitrary coefficient lists and discretisations", "anchors": ["legume/phc/shapes.py:FourierShape.__init__"]}
{"id": "C63", "title": "Guided modes are normalised by the integral of the squared magnetic field", "statement": "normalization_coeff equals the integral over all heights (lower cladding, every layer, upper cladding) of the squared magnetic field of the mode built from the given amplitudes, up to an explicit bound proportional to the regulariser 1e-20, for TE and TM.", "quantifier": "all stacks with any number of layers, all complex amplitudes and transverse wave numbers with decaying claddings", "why_tests_cant": "continuum of amplitudes and unbounded stacks; compares code with an integral", "anchors": ["legume/gme/slab_modes.py:normalization_coeff"]}
{"id": "C64", "title": "Radiative slab modes satisfy Maxwell's interface conditions and the stated normalisation", "statement": "rad_modes returns one (X, Y) pair per layer whose field has continuous tangential components at every interface; for clad=1, Y vanishes in the lower cladding and X in the upper cladding is the normalisation constant, for clad=0, X vanishes in the upper cladding and Y in the lower cladding is the normalisation constant (1, or 1/(sqrt(eps) omega) for 'te').", "quantifier": "all stacks with at least one layer, both polarisations and claddings", "why_tests_cant": "unbounded stacks, continuum of parameters", "anchors": ["legume/gme/slab_modes.py:rad_modes"]}
{"id": "C65", "title": "Coupling elements are overlap integrals of the displacement fields", "statement": "With exact layer integrals, every element of the guided-mode Hamiltonian, for all combinations of TE and TM modes, is the sum over layers of the inverse-permittivity entry times the integral over the layer of the scalar product of the displacement fields (curl of the magnetic mode fields) of the two basis states.", "quantifier": "all stacks, pairs of modes and plane waves, amplitudes and wave numbers decaying in the claddings", "why_tests_cant": "continuum of parameters, four polarisation cases, unbounded stacks; compares code with an integral", "anchors": ["legume/gme/matrix_elements.py", "legume/gme/gme.py:GuidedModeExp._construct_mat"]}
{"id": "C66", "title": "The guided-mode Hamiltonian is positive semidefinite", "statement": "If every layer's inverse permittivity matrix is positive semidefinite then, with exact layer integrals, so is the matrix of coupling elements of any finite family of TE and TM basis states, hence squared frequencies are non-negative.", "quantifier": "all stacks, finite bases of any size and coefficient vectors", "why_tests_cant": "quadratic form over unbounded dimension", "anchors": ["legume/gme/matrix_elements.py", "legume/gme/gme.py:GuidedModeExp._construct_mat"]}
{"id": "C67", "title": "Fields of a guided-mode solution satisfy Maxwell's equations plane wave by plane wave", "statement": "ft_field_xy returns, for every eigenvector and basis of TE and TM modes and in every layer or cladding, a magnetic field whose every Fourier component is divergence-free and a displacement equal to -(i/omega) times its curl; the displacement of the basis states is the one whose overlaps form the Hamiltonian.", "quantifier": "all eigenvectors, bases, plane waves, heights; wave numbers satisfying the dispersion relation of the layer", "why_tests_cant": "continuum of heights and wave vectors, relation between two outputs", "anchors": ["legume/gme/gme.py:GuidedModeExp.ft_field_xy"]}
{"id": "C68", "title": "adam leaves the caller's starting array unchanged", "statement": "Minimize.adam does not modify the array of starting parameters it was given.", "quantifier": "all objectives, bounds, epoch counts and starting arrays", "why_tests_cant": "aliasing bug visible only for one epoch with active bounds", "anchors": ["legume/minimize.py:Minimize.adam"]}
{"id": "C69", "title": "Gradients of eigsh, fmap, spdot are exact; that of eig cannot be evaluated", "statement": "The vjp registered for the sparse eigensolver is the derivative of the eigenvalues and eigenvectors whatever exact solution its conjugate-gradient solver finds; those of fmap and of the sparse product are adjoints of the derivative. The vjp registered for eig refers to undefined names and raises NameError.", "quantifier": "all differentiable paths of Hermitian matrices, all numbers of eigenpairs, all gradients", "why_tests_cant": "requires calculus and an arbitrary inner solver", "anchors": ["legume/primitives.py:vjp_maker_eigsh", "legume/primitives.py:vjp_maker_fmap", "legume/primitives.py:vjp_maker_spdot", "legume/primitives.py:vjp_maker_eig"]}
{"id": "C70", "title": "The gradient of the square root is stable at zero", "statement": "The vjp registered for sqrt is the derivative of the square root at x + 1e-10: finite and positive for x >= 0, bounded by 5e4, and within 1e-10/(4 x sqrt x) of the true derivative for x > 0.", "quantifier": "all non-negative reals", "why_tests_cant": "continuum, behaviour at the singular point", "anchors": ["legume/primitives.py:vjp_maker_sqrt"]}
{"id": "C71", "title": "Symmetry labels match the parity of the returned modes", "statement": "With kz_symmetry='both', run returns for every valid numeig one label per mode, +1 when the mode is even and -1 when it is odd under the mirror through the vertical plane of k.", "quantifier": "all Hamiltonians, sector sizes and numbers of requested modes", "why_tests_cant": "arbitrary sector sizes and degeneracies", "anchors": ["legume/gme/gme.py:GuidedModeExp.run", "legume/gme/gme.py:GuidedModeExp.kz_symms"]}
{"id": "C72", "title": "Requests for losses are resolved to the stored modes", "statement": "compute_rad returns one loss per requested mode index in the order of the request, negative indices counting from the last stored mode; it raises RuntimeError before run, ValueError for an empty request or an index beyond the last mode, IndexError for one below the first.", "quantifier": "all request lists and numbers of stored modes", "why_tests_cant": "arbitrary lists", "anchors": ["legume/gme/gme.py:GuidedModeExp.compute_rad", "legume/gme/gme.py:GuidedModeExp._compute_rad_components"]}
{"id": "C73", "title": "PWE fields of a mode solve Maxwell's equations", "statement": "For every mode of PlaneWaveExp with nonzero frequency, the returned D is (i/omega) curl H and the returned E satisfies curl E = i omega H, up to one common factor between H and the pair D, E.", "quantifier": "all modes, k and plane-wave sets", "why_tests_cant": "continuum; a test on one mode with one plane wave passes", "anchors": ["legume/pwe/pwe.py:PlaneWaveExp.ft_field_xy"]}
{"id": "C74", "title": "Requested PWE field components", "statement": "get_field_xy of PlaneWaveExp returns exactly the requested components, once each, for any order and repetition; any character other than x, y, z raises ValueError; field names are case-insensitive, E is the inverse permittivity applied to D, and any other field name raises TypeError.", "quantifier": "all request strings", "why_tests_cant": "unbounded strings", "anchors": ["legume/pwe/pwe.py:PlaneWaveExp.get_field_xy", "legume/pwe/pwe.py:PlaneWaveExp.ft_field_xy"]}
{"id": "C75", "title": "An exciton problem can be set up for every accepted quantum well", "statement": "After any sequence of building calls, ExcitonSchroedEq accepts the position of every quantum well that add_qw accepted (with three oscillator strengths or none and a known truncation) and takes the layer that contains it; positions in a cladding, other oscillator strengths and unknown truncations are refused. HopfieldPol refuses a crystal without wells and wells of different lattice constants.", "quantifier": "all histories of building calls, all positions and arguments", "why_tests_cant": "unbounded histories", "anchors": ["legume/exc/exc.py:ExcitonSchroedEq.__init__", "legume/pol/pol.py:HopfieldPol.__init__", "legume/phc/phc.py:PhotCryst.add_qw"]}
{"id": "C76", "title": "Polariton energies do not depend on phases of the modes", "statement": "Multiplying any photonic or excitonic eigenvector by a phase factor changes no polariton energy.", "quantifier": "all couplings, numbers of modes and phases", "why_tests_cant": "an eigensolver returns one phase; a test never sees another", "anchors": ["legume/pol/pol.py:HopfieldPol._calculate_C_D", "legume/pol/pol.py:HopfieldPol._construct_Hopfield"]}
{"id": "C77", "title": "Polariton energies do not depend on the order of the wells", "statement": "Adding the same quantum wells in another order changes no polariton energy.", "quantifier": "all couplings and permutations", "why_tests_cant": "unbounded number of wells", "anchors": ["legume/pol/pol.py:HopfieldPol._construct_Hopfield"]}
{"id": "C78", "title": "Every polariton of positive energy is stored", "statement": "At every k HopfieldPol stores all eigenvalues of positive energy, in ascending order.", "quantifier": "all Hopfield problems", "why_tests_cant": "arbitrary sizes", "anchors": ["legume/pol/pol.py:HopfieldPol.run"]}
{"id": "C79", "title": "Options of HopfieldPol.run", "statement": "Photons and excitons are computed at the k points of the call, whatever the option dictionaries contain and whatever was run before; calls that rely on the default dictionaries are independent of earlier calls; the caller's dictionaries are left unchanged.", "quantifier": "all option dictionaries and histories of calls", "why_tests_cant": "unbounded histories", "anchors": ["legume/pol/pol.py:HopfieldPol.run"]}
{"id": "C80", "title": "Interpolated guided modes follow the exact ones", "statement": "With gmode_compute='interp' the grid reaches every |k+G| of the run, and the frequency used for a plane wave differs from that of the guided mode at its wave vector by at most a Lipschitz constant times the grid spacing.", "quantifier": "all k points, plane waves, grids and Lipschitz dispersions", "why_tests_cant": "continuum of wave vectors", "anchors": ["legume/gme/gme.py:GuidedModeExp.run", "legume/gme/gme.py:GuidedModeExp._get_guided", "legume/gme/gme.py:GuidedModeExp._compute_guided"]}
{"id": "C81", "title": "Quality factor and progress bar", "statement": "For a mode of positive frequency and non-negative loss the plotted quality factor is finite, positive, decreasing in the loss, and within the stated relative error of re/(2 im); the progress bar has its fixed width and the rounded-down number of filled cells for every percentage from 0 to 100.", "quantifier": "all frequencies, losses, percentages and widths", "why_tests_cant": "continuum", "anchors": ["legume/viz.py:_calculate_Q", "legume/print_utils.py:load_bar"]}
{"id": "C82", "title": "Polariton dispersion of one photonic mode and sum rule", "statement": "Without losses, one photonic mode and one exciton that couple give one polariton below both bare energies and one above both, all real, solving (w^2-p^2)(w^2-e^2) = 4 p |c|^2 w^2/e; for one photonic mode and any number of excitons and wells the polariton energies are the solutions of an explicit equation; and the squares of all polariton energies obey a sum rule in the bare energies and couplings.", "quantifier": "all energies, couplings, numbers of wells and excitons", "why_tests_cant": "continuum of energies and couplings, unbounded sizes", "anchors": ["legume/pol/pol.py:HopfieldPol._construct_Hopfield", "legume/pol/pol.py:HopfieldPol._calculate_C_D"]}
{"id": "C83", "title": "The polygon transform is the Fourier integral of the polygon", "statement": "The value returned by compute_ft for a polygon at a reciprocal vector g is the integral of exp(-i g.r) over the polygon, up to an explicit error of order 1e-10 times its perimeter plus the effect of the regularised denominators, which is bounded edge by edge. At g = 0 it is the area. An edge that makes the regularised denominator vanish is left out, so the bound on the denominators is necessary.", "quantifier": "all vertex lists, all reciprocal vectors", "why_tests_cant": "continuum of shapes and vectors; the reference value is an integral", "anchors": ["legume/phc/shapes.py:Poly.compute_ft", "legume/phc/shapes.py:Poly.__init__"]}
{"id": "C84", "title": "The transforms of circles and ellipses are their Fourier integrals", "statement": "The value returned by compute_ft for a circle or an ellipse at a reciprocal vector g is the integral of exp(-i g.r) over the points its is_inside accepts, up to 2 pi 1e-10 times the product of the half axes (times the radius for a circle), when scipy.special.j1 is the Bessel function of order one. For an ellipse the centre is the point whose coordinates in the frame of its axes are x_cent, y_cent.", "quantifier": "all centres, radii, half axes, angles and reciprocal vectors", "why_tests_cant": "continuum of shapes and vectors; the reference value is an integral", "anchors": ["legume/phc/shapes.py:Circle.compute_ft", "legume/phc/shapes.py:Ellipse.compute_ft", "legume/phc/shapes.py:Circle.is_inside", "legume/phc/shapes.py:Ellipse.is_inside"]}
{"id": "C85", "title": "bz_path places its labelled points at their fraction of the path length and records the direction of every wavevector", "statement": "For a list of points and positive numbers of subdivisions, bz_path returns one k_indexes entry per given point: the length of the path walked up to that point divided by the whole length, so it starts at 0 and ends at 1. The angles it returns, one per wavevector, lie in (-180, 180] degrees and are the polar angle of the wavevector; at the Gamma point they are the polar angle of symm_g.", "quantifier": "all lattices, all lists of points (named or explicit) of non-zero total length, all lists of positive subdivisions, all choices of symm_g", "why_tests_cant": "unbounded paths; the claim relates cumulative floating sums to the geometry of the polyline", "anchors": ["legume/phc/lattice.py:Lattice.bz_path"]}
{"id": "C86", "title": "The plotting grids are symmetric, evenly spaced and span whole cells", "statement": "xy_grid returns evenly spaced grids of the requested lengths, symmetric about zero, whose half width is half the given number of periods times the absolute value of the larger of the components of the two lattice vectors; with the default periods the named lattices give a box whose sides are lattice translations. z_grid runs evenly from dist below the first layer to dist above the last, and raises IndexError without layers.", "quantifier": "all lattices, all grid sizes of at least two, all period lists, all layer stacks", "why_tests_cant": "unbounded grid sizes and a continuum of lattices", "anchors": ["legume/phc/lattice.py:Lattice.xy_grid", "legume/phc/phc.py:PhotCryst.z_grid"]}
{"id": "C87", "title": "The directions accepted by the vertical mirror separation are the mirror axes of the lattice", "statement": "With kz_symmetry set, run accepts the directions of the wavevectors exactly if the lattice is square, hexagonal or rectangular and each direction is, to 5e-9 degrees, a multiple of 45, 30 or 90 degrees, and raises ValueError otherwise. For the named lattices these multiples are exactly the mirror axes of the reciprocal lattice, and with the 'abs' truncation the mirror image of every plane wave used by a guided mode is found, so the separation raises no error there.", "quantifier": "all lattices, lists of directions, cutoffs between 1e-8 and 1e8, wavevectors along an accepted axis, selections of plane waves by |k+G|", "why_tests_cant": "continuum of directions and unbounded sets of plane waves; the converse speaks about all mirror axes of an infinite lattice", "anchors": ["legume/gme/gme.py:GuidedModeExp._calculate_refl_mat", "legume/gme/gme.py:GuidedModeExp._construct_sym_mat", "legume/gme/gme.py:GuidedModeExp._ind_g", "legume/gme/gme.py:GuidedModeExp._init_reciprocal_abs"]}
{"id": "C88", "title": "The L-BFGS minimiser records the objective of every iteration reported by SciPy", "statement": "For every objective, starting point, accepted bounds and execution of SciPy that reports iterations at the point it evaluated last, lbfgs leaves of_list as the objective at the start followed by the objective at every reported point, iteration as the number of reports and params as the last reported point, and calls the user's callback once per report with the history so far; earlier runs of the same object leave no trace. With pass_self=True every objective with a fixed number of arguments makes it raise TypeError. Bounds that cannot be parsed raise ValueError before the objective is called.", "quantifier": "all objectives, starting points, bounds, earlier states of the object and event sequences of the optimiser", "why_tests_cant": "the sequences of evaluations and callbacks of SciPy are unbounded and cannot be provoked one by one", "anchors": ["legume/minimize.py:Minimize.lbfgs", "legume/minimize.py:Minimize._parse_bounds", "legume/minimize.py:Minimize._disp"]}
{"id": "C89", "title": "A GDS file contains every shape of every layer once, rigidly placed, on its own layer", "statement": "generate_gds writes exactly one element per polygon, square, hexagon and circle, in order, on the GDS layer with the index of the layer of the crystal; a polygon rotated any number of times is written with its original number of vertices, a rigid image of the given ones enclosing the area of the shape. Any other shape makes it raise RuntimeError. generate_gds_raster maps the contours into the unit cell centred at the origin, corners to corners, and adds the outline of that cell, whose area is the area of the cell.", "quantifier": "all crystals, shapes, rotation sequences, lattices, raster sizes of at least two by two, contours within the raster", "why_tests_cant": "unbounded numbers of layers, shapes and rotations; real coordinates", "anchors": ["legume/gds.py:generate_gds", "legume/gds.py:generate_gds_raster"]}
{"id": "C90", "title": "The numerical vector-Jacobian product is the forward difference, exact for affine functions and convergent", "statement": "vjp_maker_num returns one maker per listed argument when there is a step for each and raises IndexError otherwise; the product of the maker number ia has for every component of the argument arg_inds[ia] the sum of v times the forward difference quotient with step steps[ia]. For functions affine in the argument it is exactly v times the matrix for every non-zero step, and for differentiable functions it converges to v times the Jacobian as the step tends to zero.", "quantifier": "all functions, arguments, lists of argument numbers, steps and vectors v", "why_tests_cant": "limit of the step to zero and arbitrary functions", "anchors": ["legume/utils.py:vjp_maker_num", "legume/utils.py:ft2square"]}
{"id": "C91", "title": "The plane-wave expansion of a uniform layer gives exactly the folded free-photon bands", "statement": "For a layer without dielectric contrast (no shapes, or only shapes with the permittivity of the background) PlaneWaveExp.run returns for every truncation, both polarisations and every wave vector exactly the numeig lowest values of |k+G|/(2 pi sqrt(eps)) over the plane waves of the set, each as often as it occurs.", "quantifier": "all lattices, truncations, background permittivities, lists of wave vectors, polarisations and numbers of frequencies", "why_tests_cant": "unbounded truncations and real wave vectors; degenerate values must be counted", "anchors": ["legume/pwe/pwe.py:PlaneWaveExp.run", "legume/pwe/pwe.py:PlaneWaveExp._init_reciprocal", "legume/pwe/pwe.py:PlaneWaveExp._compute_ft", "legume/pwe/pwe.py:PlaneWaveExp._compute_eps_inv", "legume/phc/layer.py:ShapesLayer.compute_ft"]}
{"id": "C92", "title": "Plane-wave frequencies have the invariances of the crystal", "statement": "The frequencies returned by PlaneWaveExp.run do not change when all shapes are displaced by a common vector, when any shape is displaced by a lattice vector, or when shapes are reordered or shapes with the background permittivity are added; the frequencies at -k equal those at k also without a centre of symmetry; multiplying all permittivities by c>0 divides all frequencies by sqrt(c).", "quantifier": "all lattices, real shapes, displacements, truncations, lists of wave vectors, polarisations and numbers of frequencies", "why_tests_cant": "each invariance is an equality over a continuum of displacements, scalings and wave vectors", "anchors": ["legume/pwe/pwe.py:PlaneWaveExp.run", "legume/pwe/pwe.py:PlaneWaveExp._init_reciprocal", "legume/pwe/pwe.py:PlaneWaveExp._compute_ft", "legume/pwe/pwe.py:PlaneWaveExp._compute_eps_inv", "legume/phc/layer.py:ShapesLayer.compute_ft"]}
{"id": "C93", "title": "The guided-mode expansion of an unpatterned slab returns the guided modes of the slab", "statement": "For a layered slab without patterning, of any number of layers, the matrix elements between normalised guided modes with the same plane wave are the squared mode frequency on the diagonal and zero between modes of different polarisation or frequency; the frequencies obtained from the completed matrix are exactly the guided-mode frequencies of the basis, each as often as it occurs.", "quantifier": "all slabs with non-negative layer thicknesses and non-zero permittivities, all bases of exact guided modes, all correct eigensolvers", "why_tests_cant": "an identity between closed-form integrals of real solutions of transcendental dispersion relations, over any number of layers", "anchors": ["legume/gme/gme.py:GuidedModeExp._construct_mat", "legume/gme/matrix_elements.py:mat_te_te", "legume/gme/matrix_elements.py:mat_tm_tm", "legume/gme/matrix_elements.py:mat_te_tm", "legume/gme/slab_modes.py:AB_matrices", "legume/gme/slab_modes.py:normalization_coeff"]}
{"id": "C94", "title": "Transverse wave numbers solve the dispersion relation on the branch of decaying waves", "statement": "For real or complex in-plane wave numbers, frequencies and permittivities the transverse wave number chi satisfies chi^2 + g^2 = eps omega^2; when eps omega^2 - g^2 has a negative real part its imaginary part is positive, otherwise its real part is non-negative; for real arguments it equals the wave number used when the guided modes were computed; it does not depend on the signs of g and omega.", "quantifier": "all complex g, omega and eps", "why_tests_cant": "a continuum of complex arguments including the branch cut of the square root", "anchors": ["legume/gme/gme.py:GuidedModeExp._get_chi", "legume/gme/slab_modes.py:chi"]}
{"id": "C95", "title": "Guided-mode frequencies do not depend on the position of the crystal, the order of shapes or shapes without contrast", "statement": "Running a guided-mode expansion with truncate_g='abs' after displacing every shape of every layer by the same in-plane vector returns the same list of results (the frequencies and the number kept at every k), and so does exchanging the order of the shapes, adding or removing shapes whose permittivity equals the background, and moving a shape by a lattice vector.", "quantifier": "every stack of layers with real permittivities, every displacement, every gmax, every k list and every sigma/numeig choice, for an eigensolver that returns ascending eigenvalues", "why_tests_cant": "The displaced structure has a different matrix, with phases on every element; equality of spectra for all displacements is an algebraic identity and tests compare a few displacements to a tolerance.", "anchors": ["legume/gme/gme.py:GuidedModeExp.run", "legume/gme/gme.py:GuidedModeExp._construct_mat", "legume/gme/gme.py:GuidedModeExp.compute_eps_inv", "legume/gme/gme.py:GuidedModeExp._compute_ft_abs", "legume/phc/layer.py:ShapesLayer.compute_ft"]}
{"id": "C96", "title": "Turning a structure upside down leaves the guided-mode frequencies unchanged", "statement": "For a stack of patterned layers, the structure with the order of layers reversed and the claddings exchanged gives the same list of eigenvalues at every wave vector, and hence the same frequencies, for any set of guided modes in the basis and any pattern of every layer; the reversed stack has a guided mode at the same frequency and wave number for each one of the original stack.", "quantifier": "all stacks of any number of layers with non-negative thicknesses and non-zero permittivities, all patterns, all finite bases of guided modes of both polarisations, all eigensolvers returning ascending eigenvalues", "why_tests_cant": "The amplitudes of the reversed stack are started from the other cladding and normalised anew, so the matrices differ by phases and signs; equality for any number of layers is not reachable by samples.", "anchors": ["legume/gme/gme.py:GuidedModeExp._construct_mat", "legume/gme/gme.py:GuidedModeExp.run", "legume/gme/matrix_elements.py:mat_te_te", "legume/gme/matrix_elements.py:mat_tm_tm", "legume/gme/matrix_elements.py:mat_te_tm", "legume/gme/slab_modes.py:AB_matrices", "legume/gme/slab_modes.py:normalization_coeff"]}
{"id": "C97", "title": "Subdividing a layer leaves the guided-mode expansion unchanged", "statement": "Adding one layer of thickness d1 + d2, or two layers of thicknesses d1 and d2 with the same permittivity and pattern, gives the same expansion matrix entry by entry for the same guided modes, whichever layer of the stack it is; every guided mode of the stack is one of the subdivided stack.", "quantifier": "all stacks of any number of layers, all positions of the subdivided layer, all non-negative d1 and d2, all patterns and bases of guided modes", "why_tests_cant": "Real thicknesses and any number of layers; the amplitudes, norms and layer integrals of the two stacks are computed differently.", "anchors": ["legume/gme/gme.py:GuidedModeExp._construct_mat", "legume/gme/gme.py:GuidedModeExp.run", "legume/gme/matrix_elements.py:mat_te_te", "legume/gme/matrix_elements.py:mat_tm_tm", "legume/gme/matrix_elements.py:mat_te_tm", "legume/gme/slab_modes.py:AB_matrices", "legume/gme/slab_modes.py:normalization_coeff"]}
{"id": "C98", "title": "The permittivity shown on a plane is the Fourier series that the solver uses", "statement": "get_eps_xy of the plane-wave expansion returns, at every grid point, the Fourier series of the layer over all reciprocal vectors with indices up to twice the index cutoffs, each taken once; of the guided-mode expansion with truncate_g='abs', the series over all differences of retained plane waves for the layer containing z; with 'tbt' the series over the rectangle as in the plane-wave expansion, provided coefficients are stored without loss. The returned values are real, their Fourier coefficients over the elementary cell are those of the layer at these vectors and zero elsewhere, and their average over the cell is the layer's average permittivity. Rows are indexed by y and columns by x.", "quantifier": "all lattices with independent primitive vectors, all cutoffs, grids and heights, all layers of shapes whose transforms are those of real functions", "why_tests_cant": "The coefficient list contains vectors up to four times and conjugates of them; that every vector is counted once, for every cutoff and lattice, is beyond a finite set of plots.", "anchors": ["legume/pwe/pwe.py:PlaneWaveExp.get_eps_xy", "legume/gme/gme.py:GuidedModeExp.get_eps_xy", "legume/utils.py:ftinv", "legume/utils.py:z_to_lind"]}
{"id": "C99", "title": "Modes of a guided-mode expansion are normalised and orthogonal as fields", "statement": "With exact integrals over the layers and an exact eigensolver, for the modes of one k point the magnetic fields returned by get_field_xy satisfy: the integral of conj(H_a).H_b over one elementary cell and all heights is 1 for the same mode and 0 for different modes, degenerate ones included; more generally it is the scalar product of the expansion coefficients. The integral of conj(E_a).D_b is the expansion matrix between the coefficients divided by both frequencies, and therefore also 1 for the same mode and 0 otherwise. If the inverse permittivity matrices are positive semidefinite, no eigenvalue of the expansion matrix is negative.", "quantifier": "all lattices, stacks of layers, patternings with Hermitian inverse permittivity matrices, bases of guided modes of the stack of effective permittivities, modes of non-zero frequency (for E and D)", "why_tests_cant": "Integrals over unbounded heights of sums over all pairs of basis states; a numerical quadrature can only check a few modes to some accuracy.", "anchors": ["legume/gme/gme.py:GuidedModeExp.ft_field_xy", "legume/gme/gme.py:GuidedModeExp.get_field_xy", "legume/gme/slab_modes.py:guided_mode_given_gvec", "legume/gme/matrix_elements.py"]}
{"id": "C100", "title": "Field plots in the three planes agree where the planes meet", "statement": "get_field_xy, get_field_xz and get_field_yz return a dictionary with exactly the requested components, once each whatever their order and repetitions; the entry in row i and column j is the sum of the plane waves of the mode at that point of the grids (rows: y, or z in the vertical planes). Where the planes meet the three functions return the same values. A grid that is given is used as it is; default grids in x and y are the same for the horizontal and the vertical planes. Any other letter raises ValueError, and without layers the default heights raise IndexError.", "quantifier": "all modes, grids, planes, component strings and lattices with different reciprocal vectors", "why_tests_cant": "Each function builds its arrays differently (meshgrid, ravel of a row, ravel of a column); agreement for all grids and component strings is not covered by comparing some plots.", "anchors": ["legume/gme/gme.py:GuidedModeExp.get_field_xy", "legume/gme/gme.py:GuidedModeExp.get_field_xz", "legume/gme/gme.py:GuidedModeExp.get_field_yz", "legume/utils.py:ftinv"]}
{"id": "C101", "title": "Permittivity matrices represent the permittivity drawn in the plane", "statement": "If no two copies of the shapes of a layer overlap, the Fourier coefficients which the layer passes to the solvers at every vector of the reciprocal lattice are those of the permittivity as a function of the position (that of the shape which contains the point by is_inside, otherwise that of the background), up to the sum of the errors of the transforms of the shapes; for circles and ellipses these errors come only from the 1e-10 added to |g|. Hence the permittivity matrices of both solvers lie, as quadratic forms, between the lowest and the highest permittivity of the layer up to that error times the number of plane waves; while this lower bound is positive they are positive definite, their inversion cannot fail and the inverse is positive definite, so a plane-wave run for a lattice of circles succeeds and none of its squared frequencies is negative.", "quantifier": "all lattices, all lists of non-overlapping measurable shapes with transforms of known error, all permittivities, all truncations gmax and all k points", "why_tests_cant": "The claim compares a finite matrix with the integral of a discontinuous function over the plane, for every truncation; running the code on examples neither covers all truncations nor evaluates the integrals.", "anchors": ["legume/phc/layer.py:ShapesLayer.compute_ft", "legume/phc/shapes.py:Circle.compute_ft", "legume/phc/shapes.py:Circle.is_inside", "legume/phc/shapes.py:Ellipse.compute_ft", "legume/pwe/pwe.py:PlaneWaveExp._compute_eps_inv", "legume/gme/gme.py:GuidedModeExp.compute_eps_inv"]}
{"id": "C102", "title": "Plane-wave frequencies fall when permittivities are raised and lie between those of uniform media", "statement": "In a plane-wave expansion of a layer of non-overlapping shapes, raising the permittivity of the background and of every shape lowers, or leaves unchanged, the frequency of every band at every wave vector, in both polarisations (without condition if all are raised by the same amount; otherwise as long as the smallest increment is not below the number of plane waves times the error of a Fourier coefficient of the increments). Every frequency lies between that of the same number of the uniform media of the highest and of the lowest permittivity, i.e. between |k+G|_i/(2 pi sqrt(eps_max)) and |k+G|_i/(2 pi sqrt(eps_min)) with the |k+G| in ascending order, up to the same kind of margin in the permittivities.", "quantifier": "all lattices, non-overlapping shapes with transforms of known error, positive permittivities, truncations, wave vectors, numbers of eigenvalues and both polarisations", "why_tests_cant": "An inequality between all bands of two runs for all geometries and truncations; comparing two band diagrams only tests those two.", "anchors": ["legume/pwe/pwe.py:PlaneWaveExp.run", "legume/pwe/pwe.py:PlaneWaveExp._compute_eps_inv", "legume/phc/layer.py:ShapesLayer.compute_ft"]}
{"id": "C103", "title": "Plane-wave frequencies in TM polarisation converge from above", "statement": "For pol='tm' a plane-wave run with a larger gmax, whose permittivity matrix is positive definite, and the run with the smaller gmax both succeed, and at every wave vector no band has a higher frequency with the larger gmax than with the smaller one; at least as many bands are returned.", "quantifier": "all layers of shapes with real Fourier conventions, all pairs gmax <= gmax', wave vectors and numbers of eigenvalues", "why_tests_cant": "Monotone convergence relates runs with different matrices for every pair of truncations; a convergence study samples a few values of gmax.", "anchors": ["legume/pwe/pwe.py:PlaneWaveExp.run", "legume/pwe/pwe.py:PlaneWaveExp._init_reciprocal", "legume/pwe/pwe.py:PlaneWaveExp._compute_eps_inv"]}
{"id": "C104", "title": "In a guided-mode expansion, more guided modes never raise a frequency", "statement": "Take two guided-mode expansions of the same structure with the same effective permittivities, wave vectors, truncation and number of eigenvalues, such that at every wave vector the guided modes used by the first are among those used by the second (for instance because gmode_inds lists more modes). With the default eig_sigma = 0, at every wave vector every band of the second run has a frequency that is at most that of the first. This holds whenever the inverse permittivity matrices are positive semidefinite, in particular for layers of non-overlapping shapes of positive permittivity whose transforms are accurate enough.", "quantifier": "all structures, lattices, truncations, wave vectors, numbers of eigenvalues and all nested families of guided modes", "why_tests_cant": "An inequality between two runs of different matrix sizes at every wave vector; adding modes in an example tests a single pair.", "anchors": ["legume/gme/gme.py:GuidedModeExp.run", "legume/gme/gme.py:GuidedModeExp._construct_mat", "legume/gme/gme.py:GuidedModeExp._compute_guided", "legume/gme/gme.py:GuidedModeExp.compute_eps_inv"]}
{"id": "C105", "title": "With effective permittivities set by hand, raising permittivities never raises a guided-mode frequency", "statement": "With eps_eff='custom' (the same effective permittivities, hence the same guided modes, in both runs) raising the permittivities of the background and the shapes of any of the layers lowers, or leaves unchanged, the frequency of every band at every wave vector, provided the increments dominate the errors of the transforms (no condition for uniform increments). The same holds whenever the inverse permittivity matrices of the second run are below those of the first as quadratic forms.", "quantifier": "all structures of layers with non-overlapping shapes, all raised permittivities, truncations, wave vectors and numbers of eigenvalues", "why_tests_cant": "An inequality between all bands of two runs for all geometries; a test compares two permittivities of one geometry.", "anchors": ["legume/gme/gme.py:GuidedModeExp.run", "legume/gme/gme.py:GuidedModeExp._construct_mat", "legume/gme/gme.py:GuidedModeExp.compute_eps_inv", "legume/phc/layer.py:ShapesLayer.compute_ft"]}
{"id": "C106", "title": "The constant added to the denominators of the layer integrals hardly moves a guided-mode frequency", "statement": "The integrals over the layers in a guided-mode expansion are computed with 1e-20 added to the denominators. Compared with a run with exact integrals, which succeeds whenever the actual run does, the squared angular frequency of every band at every wave vector changes by at most the number of basis elements times 1e-20 times an explicit expression in the sizes of the guided modes (amplitudes, vertical wave numbers, decay in the claddings, thicknesses, effective permittivities) and of the inverse permittivity; small negative eigenvalues caused by it are covered. Hence the ordering of frequencies under additional guided modes and under raised permittivities holds for the actual runs up to twice that bound.", "quantifier": "all structures with positive semidefinite inverse permittivity matrices, all guided modes decaying in the claddings, truncations, wave vectors and numbers of eigenvalues", "why_tests_cant": "A perturbation bound for every matrix; tests see only that numbers look right to some digits.", "anchors": ["legume/gme/matrix_elements.py:IJ_layer", "legume/gme/matrix_elements.py:J_alpha", "legume/gme/matrix_elements.py:I_alpha", "legume/gme/gme.py:GuidedModeExp.run"]}
{"id": "C107", "title": "The electric field and the displacement returned for a mode are related by the permittivity drawn", "statement": "For a mode, the electric field returned in the plane, multiplied by the permittivity of the structure at each point, has along every plane wave of the expansion the same Fourier component as the displacement returned, up to an explicit error of the drawing (the smoothing of circles at zero wave vector) times the total amplitude of the electric field. This holds for plane-wave expansions, and for guided-mode expansions with the rectangular truncation when the Fourier samples of the permittivity are complex. With the default circular truncation of guided-mode expansions it holds for structures symmetric under inversion about the origin only: in general the permittivity that relates the two fields is that of the structure inverted about the origin.", "quantifier": "all structures drawn with isolated shapes, all truncations, all modes and all reciprocal lattice vectors in the expansion", "why_tests_cant": "The relation is between functions over the whole cell; the shipped tests compare frequencies, which are the same for the inverted structure.", "anchors": ["legume/pwe/pwe.py:PlaneWaveExp.ft_field_xy", "legume/gme/gme.py:GuidedModeExp._compute_ft_abs", "legume/gme/gme.py:GuidedModeExp._compute_ft_tbt", "legume/gme/gme.py:GuidedModeExp.ft_field_xy", "legume/gme/gme.py:GuidedModeExp.get_field_xy", "legume/utils.py:ftinv"]}
{"id": "C108", "title": "Opposite wave vectors and inverted patterns have the same guided-mode frequencies", "statement": "`GuidedModeExp.run` reports the same frequencies at a wave vector k and at -k, for every pattern, with or without a centre of inversion (the common shift of 1e-15 of all plane waves is reflected along: the opposite of k is -k minus twice the shift). A structure whose patterns are all turned by half a turn has the same frequencies at every wave vector. With the layer integrals exact both are equalities of the whole result, errors included; with the regularised integrals of the code the squared angular frequencies differ by at most twice the bound of C106. The guided modes used are real fields.", "quantifier": "for all structures whose shapes are real (transform at -G the conjugate), all numbers of layers, plane waves, guided modes, wave vectors and requested eigenvalues; guided modes taken from branches omega(|g|) of roots of the dispersion relation", "why_tests_cant": "Tests compare a few bands of symmetric crystals, for which k and -k are related by the symmetry of the crystal; no test covers a pattern without inversion, where only the reality of the guided modes and the conjugation of all matrices make the bands symmetric.", "anchors": ["legume/gme/gme.py:284-401", "legume/gme/gme.py:442-643", "legume/gme/gme.py:645-710", "legume/gme/matrix_elements.py:1-168", "legume/phc/layer.py:140-157"]}
{"id": "C109", "title": "Exciton energies: opposite wave vectors, inverted and displaced patterns, plane waves, and bounds by the potential", "statement": "For a whole run of `ExcitonSchroedEq`, with either truncation: the energies at k and at -k agree for every real pattern; inverting all shapes at the origin, or moving all of them by one vector, changes no energy; more plane waves never raise an energy. If the shapes do not overlap (and there is one shape or the cell has area 1, see C39), the potential used is the one drawn: V inside the shapes for positive V, |V| outside for negative V, up to the errors of the transforms. Then the energy of number i lies between E0 plus the i-th smallest kinetic energy hbar^2|k+G|^2/(2 M a^2 e) and that plus |V|; raising a barrier or deepening a well lowers no energy and raises none by more than the change of V. The imaginary part is the loss.", "quantifier": "for all lattices, all lists of real shapes, all values of V, M, a, E0 and loss, both truncations, all gmax >= 0, wave vectors and requested numbers of energies", "why_tests_cant": "Tests compare a few energies with reference numbers; relations between runs with different wave vectors, patterns, truncations and potentials hold for no finite list of cases.", "anchors": ["legume/exc/exc.py:141-385", "legume/phc/layer.py:159-178"]}
{"id": "C110", "title": "Exciton wave functions and potentials in real space", "statement": "After a run of `ExcitonSchroedEq`, `get_wavef_xy` returns for every energy kept a function whose Fourier components are those of `ft_wavef_xy`; the functions of one wave vector are orthonormal over the cell and satisfy the Schroedinger equation with the potential drawn: along every plane wave of the expansion, kinetic energy plus potential times wave function equals (energy - E0 - i loss) times the wave function, up to the errors of the transforms. `get_pot_xy` returns a real function with the Fourier coefficients of the potential drawn and no others.", "quantifier": "for all lattices, lists of non-overlapping real shapes, values of V, M, a, E0 and loss, both truncations, all gmax >= 0, wave vectors, numbers of energies and grids", "why_tests_cant": "Tests look at energies only; a wave function of the mirror image of the pattern, with the same energies, passes all of them.", "anchors": ["legume/exc/exc.py:219-294", "legume/exc/exc.py:306-475", "legume/utils.py:13-51"]}
{"id": "C111", "title": "Guided-mode frequencies lie between those of the folded modes of the effective slab", "statement": "`GuidedModeExp.run` on a patterned structure: at every wave vector the m-th frequency lies between sqrt(alpha) and sqrt(beta) times the m-th lowest frequency of the guided modes of the effective slab that were expanded in, where alpha and beta bound the ratio of the effective permittivity of a layer to the permittivities drawn in it. In particular with `gmode_eps='background'` cutting holes of lower permittivity never lowers a frequency below that of the slab without the holes.", "quantifier": "for all lattices, stacks of layers with positive permittivities, lists of non-overlapping shapes, all gmax, wave vectors, sets of guided modes, numbers of modes and both inversion settings", "why_tests_cant": "Tests check single structures at single wave vectors; bounds on all bands of all structures need the order of the quadratic forms.", "anchors": ["legume/gme/gme.py:403-481", "legume/gme/gme.py:483-746", "legume/gme/gme.py:894-1011"]}
{"id": "C112", "title": "Polariton energies without losses are real", "statement": "`HopfieldPol.run` with real photon and exciton energies: all polariton energies are real, so the stored imaginary parts vanish and the run stores N + K - 1 positive energies in ascending order.", "quantifier": "for all numbers of photonic modes, wells and excitons, all positive photon and exciton energies and all couplings", "why_tests_cant": "An imaginary energy appears only for particular coupling strengths and orders of the wells; no finite set of runs rules it out.", "anchors": ["legume/pol/pol.py:156-241", "legume/pol/pol.py:300-350"]}
{"id": "C113", "title": "What a whole polariton run stores", "statement": "`HopfieldPol.run` after a photonic run with losses: it succeeds and stores at every wave vector exactly N + K - 1 energies in ascending order of the real parts, none negative. The couplings are the prefactor times the average over the cell of the field `get_field_xy` returns at the height of the well, weighted by the square roots of the oscillator strengths, and the conjugate of the wave function `get_wavef_xy` returns. If in every well each component of the oscillator strength or of the field vanishes, the energies are the photon energies and the exciton energies `ExcitonSchroedEq.run` returns. Without losses and for fields weak against the energies all imaginary parts vanish. After a photonic run with `compute_im=False` it raises a TypeError.", "quantifier": "for all wells, photonic outputs, truncations, wave vectors, numbers of modes and excitons, prefactors, and any correct eigenvalue solvers and sorts", "why_tests_cant": "The couplings join two solvers; a test fixes one structure and compares with stored numbers, and cannot cover all fields, wells and eigenvector choices of the solvers.", "anchors": ["legume/pol/pol.py:156-241", "legume/pol/pol.py:243-350", "legume/exc/exc.py:306-385"]}
{"id": "C114", "title": "Images of mode fields", "statement": "legume.viz.field(struct, field, kind, mind, ...) shows one panel per letter of component, in order; each panel shows the real part, imaginary part or modulus of that component at the points of the grid of the selected plane, with colour limits -m..m (0..m for the modulus), m being the largest modulus shown, with the extent of the grids, and with the outline of the permittivity at the same points. For a slab exactly one of x, y, z must be given (else ValueError); for a two-dimensional structure only the xy plane is available (x or y alone raises NotImplementedError). With periodic=True the periodic part of the mode is shown; with periodic=False the full field including the factor exp(i k.r). A component letter other than x, y, z, an empty component or another val raises ValueError. [Not so in the xy plane: with different numbers of points periodic=False raises ValueError, and with equal numbers the pixel at (x_s, y_r) gets the phase of (x_s, y_s); and a repeated letter is multiplied by the phase again. Moduli are right nevertheless.]", "quantifier": "all structures, modes, planes, wave vectors, component strings, numbers of points at least two", "why_tests_cant": "Image comparisons use one structure and mostly periodic=True or moduli; the missing mesh in the phase is invisible for moduli, for k along x, and at the Gamma point.", "anchors": ["legume/viz.py:1123-1320", "legume/gme/gme.py:2126-2350", "legume/pwe/pwe.py:312-371"]}
{"id": "C115", "title": "Plots of photonic and polaritonic bands", "statement": "legume.viz.bands(gme) draws exactly one marker per mode, at the abscissa of its wave vector and the height f (in eV: h c / a times f), on axes from zero to the last abscissa and from zero to the largest height, so that every mode is visible; with kz_symmetry='both' it is coloured by its symmetry. The shaded light cone contains a marker exactly if one of the claddings has an open channel at its wave vector and frequency. With Q=True a marker is coloured by f/(2(im+1e-16)), losses being computed if none are stored, and the scale ends at the largest quality factor below Q_clip. eV=True without a, or with a negative one, raises ValueError. viz.pol_bands draws one marker per polariton coloured by its excitonic fraction (fraction=True) or quality factor. [Not so: if no mode has a quality factor below Q_clip, e.g. for lossless guided modes, Q=True raises ValueError; PlaneWaveExp objects, documented as accepted, raise AttributeError with the default cone=True and with Q=True.]", "quantifier": "all band structures with at least one wave vector and mode, all units and options", "why_tests_cant": "Plot tests look at one band structure; the error for purely lossless bands and for two-dimensional structures with default arguments needs inputs outside of them.", "anchors": ["legume/viz.py:13-226", "legume/viz.py:229-352", "legume/viz.py:1394-1495"]}
{"id": "C116", "title": "Images of the permittivity and of its Fourier series", "statement": "For every structure with at least one layer, legume.viz.structure draws, in this order, the xz plane y=0 and the yz plane x=0 if asked for, and one xy panel per layer (with cladding=True also per cladding) from bottom to top; the panel of a layer shows exactly what viz.eps shows of that layer, viz.eps_xy does so at any height inside a layer, and the vertical planes show at each height the layer which contains it; the images show the periodic permittivity map; all panels have the colour limits of get_eps_bounds and no pixel is outside of them; wells are marked at their heights. viz.eps_ft draws one panel per layer with the real part of the Fourier series used by the expansion, and common limits which enclose all pixels and are attained. viz.pot_ft does so for exciton potentials. [Not so: the panel of a layer of zero thickness shows another layer; the periodic map is shown only if the shapes lie near the origin; the panel 'upper cladding' of eps_ft shows a layer if the stack is thicker than 5e9; structure rejects the documented PlaneWaveExp with ValueError; eps_ft with gridspec and fig raises NameError; for a PlaneWaveExp with cladding=True the panel is titled 'upper cladding'; pot_ft raises IndexError with truncate_g='tbt'.]", "quantifier": "all histories of building calls with non-negative thicknesses of total below 1e10, all grids and options", "why_tests_cant": "Plot tests look at one structure; layers of zero thickness, thick stacks and the arguments which raise an error are not among them.", "anchors": ["legume/viz.py:355-627", "legume/viz.py:672-988", "legume/viz.py:991-1108"]}
{"id": "C117", "title": "Losses of whole guided-mode runs", "statement": "GuidedModeExp.run with compute_im=True stores the same frequencies as without. At each wave vector k and for each stored mode of frequency f, the channels in rad_gvec are exactly the vectors g with |g+k|^2 <= eps (2 pi f)^2, eps the average permittivity of the cladding (delta_gx added to g_x); rad_coup has one number per channel and polarisation; the losses fail to be finite exactly if |g+k|^2 = eps (2 pi f)^2 for some g and some cladding; otherwise total, TE and TM losses are non-negative, neither part exceeds the total, the total does not exceed their sum, the decay rates corresponding to them are the sums of |rad_coup|^2 over the channels and add up exactly, and a mode without open channels has no losses. Displacing all shapes of all layers by the same vector, changing the order of the shapes, adding shapes of the background permittivity and moving shapes by lattice vectors changes no frequency and no channel, and neither the losses nor the absolute values of the couplings of any mode whose eigenvalue no other mode has. Turning a structure upside down (patterning included; exact integrals over the layers) does the same with the claddings exchanged. A structure without shapes (exact integrals) does not radiate: all couplings to all open channels are zero, whatever eigenvectors the solver returns.", "quantifier": "all structures, truncations, wave vectors, guided modes, correct eigensolvers and choices of eigenvectors", "why_tests_cant": "Loss tests compare a few numbers with stored ones; invariance of the losses for arbitrary patterns, degenerate modes and arbitrary phases of the eigenvectors cannot be sampled.", "anchors": ["legume/gme/gme.py:346-354", "legume/gme/gme.py:1181-1229", "legume/gme/gme.py:1588-1781", "legume/gme/gme.py:1816-1857"]}
{"id": "C118", "title": "The guided modes of a run are those of the effective slab", "statement": "With gmode_compute='exact' and delta_gabs=0, the basis GuidedModeExp.run expands in at a wave vector k is, mode number by mode number, one state for every plane wave at which the mode is found, with exactly the frequency and the normalised field of the guided mode of the effective slab at |k+G| (frequencies increasing with the order of the mode and strictly between the light lines), and no mode occurs twice. Hence for a structure without shapes run stores at every k exactly the lowest numeig of the frequencies found at the plane waves over 2 pi, in increasing order, and finds no couplings and no losses; for arbitrary patterns the frequencies at opposite wave vectors are the same. For all options, if none of the modes asked for is found at any wave vector RuntimeError is raised, and otherwise the basis is found. Conditions for all but the last: all |k+G| at least 1e-4 and, if different, more than 1e-8 apart; the number of modes found does not decrease with |k+G|; the root finder returns zeros, not on the light line of a layer (for slabs of one layer such a root finder exists); mode numbers without repetition; exact integrals over the layers.", "quantifier": "all slabs with at least one layer, all options of the search, all plane waves, wave vectors, root finders with the stated contract and correct eigensolvers", "why_tests_cant": "Tests compare a few bands with stored numbers. That grid, reuse of modes at close wave vectors, alignment of modes with grid points, interpolation and selection of plane waves together give the slab's own modes at each plane wave is a statement about all slabs and grids.", "anchors": ["legume/gme/gme.py:284-329", "legume/gme/gme.py:356-401", "legume/gme/gme.py:523-595", "legume/gme/gme.py:949-968", "legume/gme/slab_modes.py:21-157"]}
{"id": "C119", "title": "Radiative couplings are overlaps of the mode with outgoing waves", "statement": "For a run of GuidedModeExp with compute_im=True: in every channel (cladding, plane wave k+G, polarisation) that is open at the frequency of a mode and in which no layer of the effective stack is exactly on its light line, the radiative wave always exists (the amplitude rad_modes divides by is never zero); it has continuous tangential fields at all interfaces, only one partial wave in the other cladding, and the stated normalisation. The number stored in rad_coup for that channel is sqrt(pi*rho) times the overlap, integrated over all layers and heights, of the displacement of that wave with the conjugated electric field of the mode (the expansion of the eigenvector in guided modes multiplied by the inverse permittivity matrices), times -i for TE waves, with rho the density of states of the cladding. Exact integrals over the layers.", "quantifier": "all structures with real shapes and at least one layer, all slabs with positive permittivities of the claddings, all bases of guided modes, eigenvectors, wave vectors and open channels of both claddings and polarisations", "why_tests_cant": "Tests compare loss rates with stored numbers at a few points. A swapped amplitude, wave vector component or polarisation in one channel only shows for asymmetric structures, and no test can show that the division in rad_modes never fails.", "anchors": ["legume/gme/gme.py:346-354", "legume/gme/gme.py:1634-1765", "legume/gme/slab_modes.py:467-542", "legume/gme/matrix_elements.py:33-168"]}
{"id": "C120", "title": "Radiative waves conserve energy", "statement": "For the waves rad_modes returns in an open channel: the power (real part of chi for TE, of chi/eps for TM, times the squared amplitude) of the partial wave with fixed amplitude in the cladding the wave leaves through equals the power of the other partial wave in that cladding plus the power of the partial wave in the other cladding; the latter is zero if that cladding is closed, so that everything is reflected.", "quantifier": "all slabs with at least one layer and positive permittivities of the claddings, frequencies, wave vectors with an open channel off the light lines, both polarisations and claddings", "why_tests_cant": "Energy conservation relates amplitudes computed from a product of many complex matrices; tests can only sample it.", "anchors": ["legume/gme/slab_modes.py:160-240", "legume/gme/slab_modes.py:467-542"]}
{"id": "C121", "title": "kz_symmetry splits the modes of mirror-symmetric crystals", "statement": "For a run of GuidedModeExp over wave vectors on mirror planes of the crystal: with kz_symmetry='both' it returns only if the run without symmetry does; the returned frequencies are equally far from eig_sigma and the same when eig_sigma <= 0. With 'even' and 'odd' the modes of the run without symmetry are split between the two runs. If all modes of gmode_inds exist and some used plane wave lies off the mirror plane, runs fail only for the number of modes: there are e > 0 even and d > 0 odd states at each wave vector, and the runs without symmetry, 'even' and 'odd' return exactly when numeig is at most e+d, e and d. Circles, ellipses and their mirror images make mirror-symmetric crystals, and so do the plane waves of square and hexagonal lattices. Exact integrals over the layers. If fewer angles are given than wave vectors, a run that returns with all angles raises IndexError.", "quantifier": "all mirror-symmetric structures with real shapes, all lists of wave vectors and matching angles, root finders, options, thresholds, eigensolvers, numeig and eig_sigma, dense and sparse", "why_tests_cant": "Tests compare band structures of one crystal along one path. That the reflected basis state of every state is in the basis, that the permittivity commutes with the reflection and that no mode is lost or doubled are statements about all matrix sizes and shapes.", "anchors": ["legume/gme/gme.py:552-625", "legume/gme/gme.py:877-893", "legume/gme/gme.py:1022-1158", "legume/gme/gme.py:1228-1523"]}
{"id": "C122", "title": "Plane-wave bands of rotated, mirrored and rescaled crystals", "statement": "If a crystal is rotated or mirrored and all its lengths are divided by c, PlaneWaveExp with gmax multiplied by c, at the rotated wave vectors multiplied by c, returns exactly the old frequencies times c, and fails exactly if it failed before. If a rotation or mirror maps every shape of the layer onto a shape of the layer and the plane waves of the set onto themselves, the frequencies at a wave vector and at its image are the same. Circles may be rotated and mirrored, ellipses rotated and rescaled. On the square lattice the plane waves of every gmax have the symmetry of the square; on the hexagonal lattice they do not have the six-fold symmetry, and the frequencies returned at a wave vector and at the one rotated by 60 degrees differ even without shapes.", "quantifier": "all lattices resolved by the code, all layers of real shapes with the stated transforms, all similarities of the plane, cutoffs, lists of wave vectors, polarisations, numeig and correct eigensolvers", "why_tests_cant": "Tests compute bands of a few crystals in one orientation and one unit of length. That orientation and unit never matter is a statement about all crystals, truncations and eigensolvers.", "anchors": ["legume/pwe/pwe.py:84-110", "legume/pwe/pwe.py:112-140", "legume/pwe/pwe.py:142-199", "legume/phc/shapes.py:91-100", "legume/phc/shapes.py:145-160"]}
{"id": "C123", "title": "Guided-mode runs of rotated, mirrored and symmetric structures", "statement": "If the lattice and the shapes of all layers of a structure are rotated or mirrored in the plane, GuidedModeExp.run at the rotated or mirrored wave vectors returns the same frequencies as before, or fails with the same exception. If a rotation or mirror maps the plane waves of the set onto themselves and every shape of every layer onto a shape of the same layer, then the run at the mapped wave vectors of the same structure returns the same frequencies, or fails with the same exception. The plane waves of truncate_g='abs' have all rotations of the square and of the hexagonal lattice. The wave vectors are understood with the shift delta_gx of the code; without gmode_compute='exact' there must be no shift.", "quantifier": "all structures over lattices resolved by the code, all rotations and mirrors, root finders, options of the guided modes, cutoffs, effective permittivities, lists of wave vectors, eig_sigma, numeig and correct sorted eigensolvers; the first part for the integrals and norms as computed or any other, the second for exact integrals", "why_tests_cant": "Tests run a few structures in one orientation. That the orientation never matters, and that the bands have every symmetry of the crystal, is a statement about all structures, options and eigensolvers; a mistake in the polarisation vectors or in the order of the plane waves shows up only at wave vectors off the axes.", "anchors": ["legume/gme/gme.py:211-256", "legume/gme/gme.py:284-329", "legume/gme/gme.py:523-643", "legume/gme/gme.py:645-701", "legume/gme/gme.py:826-1060"]}
{"id": "C124", "title": "Outlines drawn by viz.shapes", "statement": "viz.shapes of a layer draws, for each shape in order, its outline and, with pad, the outlines displaced by a1, -a1, a2 and -a2, within the window of xy_grid. For a circle the curve is closed, has npts corners on the circle, and every point of the circle is within |r| pi/(npts - 1) of a corner; for a polygon (also rotated) the curve is exactly its boundary. Copies displaced along both lattice vectors are left out, so outlines within the window can be missing; with an Ellipse the call raises AttributeError.", "quantifier": "all lattices, lists of shapes, npts and pad", "why_tests_cant": "a test draws a few figures; the claim is about every point of every outline", "anchors": ["legume/viz.py:382-392", "legume/viz.py:630-669", "legume/phc/shapes.py:188-198", "legume/phc/shapes.py:281-297"]}
{"id": "C125", "title": "Printing layers and structures", "statement": "repr of a layer or a PhotCryst raises NameError if a layer contains an Ellipse, and succeeds otherwise. The text of a layer lists the shapes in the order in which they were added, one after the other; the text of a structure lists the layers numbered from 0 in the order in which they were added, and not the claddings.", "quantifier": "all structures made of circles, polygons, squares, hexagons, Fourier shapes and ellipses, all ways to write numbers", "why_tests_cant": "tests do not print ellipses, and print few structures", "anchors": ["legume/phc/phc.py:39-47", "legume/phc/layer.py:112-118", "legume/phc/shapes.py:87-89", "legume/phc/shapes.py:143-144", "legume/phc/lattice.py:45-47"]}
{"id": "C126", "title": "Guided-mode bands scale with the lengths and the refractive index", "statement": "Take a photonic crystal slab, divide all its lengths (lattice constants, layer thicknesses, positions and sizes of its ellipses) by c > 0 and multiply all permittivities by n² (n > 0), and run the guided-mode expansion at the wave vectors times c, with gmax, delta and target frequency in the new units. If the guided modes of the effective slab are given by the roots of its dispersion relation, the run fails exactly if the original run fails, with the same error, and all its frequencies are those of the original run times c / n, in the same order, with the same guided-mode indices. A frequency is that of a guided mode of a slab if and only if it is, times c / n, that of the rescaled slab. If n = 1, this also holds with the guided modes computed by legume's own root search, with its step and tolerance in the new units, if the absolute thresholds of the code do not tell the units apart (for exact wave vectors: all |G + k| are at least 1e-4 and distinct ones differ by more than 1e-8, in both units).", "quantifier": "all lattices, numbers of layers and shapes whose Fourier transforms scale with their size; all c, n > 0; all wave vectors, gmax off the lengths of reciprocal vectors, truncations, effective permittivities, targets and numbers of modes; all root finders which commute with the change of unit; exact integrals over the profiles", "why_tests_cant": "A test compares one structure in two units up to a tolerance. It cannot exclude that some combination of options, modes and wave vectors uses a quantity which is not in units of the lattice constant, and it does not tell which thresholds and steps must be rescaled with it.", "anchors": ["legume/gme/gme.py:run", "legume/gme/slab_modes.py:guided_modes", "legume/gme/slab_modes.py:guided_mode_given_g", "legume/gme/slab_modes.py:D22_TE", "legume/gme/slab_modes.py:normalization_coeff", "legume/gme/matrix_elements.py:mat_te_te"]}
{"id": "C127", "title": "Losses of rotated, mirrored and symmetric structures", "statement": "Rotate or mirror a photonic crystal slab together with the wave vectors, and run the guided-mode expansion with the losses (compute_im). The run fails with the same error as the original one, or all frequencies are the same, the same diffraction channels of the claddings are open, and every mode whose frequency is not degenerate keeps its loss freqs_im and the absolute values of its couplings rad_coup to every open channel and polarisation. For degenerate modes the sum over the modes of the squared couplings to the channels is the same, in each cladding and polarisation. If the rotation or mirror maps the plane waves and the shapes of every layer onto themselves, the same holds for the wave vectors and their images in one structure, the channels being exchanged by the symmetry.", "quantifier": "all rotations and mirrors, lattices, numbers of layers and shapes; all wave vectors, guided-mode indices, truncations, effective permittivities and targets; all root finders and solvers of the eigenvalue problem, whatever basis they return for degenerate eigenvalues; legume's own search for the guided modes; any integrals over the profiles for rotated structures, exact ones for symmetric crystals", "why_tests_cant": "A test compares the losses of one structure in a few orientations. Phases of eigenvectors and bases of degenerate eigenspaces depend on the linear algebra library, so couplings of single runs differ; which combinations are independent of it, for all structures and channels, takes a proof.", "anchors": ["legume/gme/gme.py:compute_rad", "legume/gme/gme.py:run_im", "legume/gme/gme.py:_compute_rad_components", "legume/gme/slab_modes.py:rad_modes"]}
{"id": "C128", "title": "Losses at opposite wave vectors", "statement": "Run the guided-mode expansion with the losses (compute_im) at some wave vectors and again at their opposites, for any pattern, symmetric or not. The runs fail with the same error, or all frequencies are the same and a diffraction channel is open at the one wave vector exactly when the opposite channel is open at the other. Every mode with a frequency that is not degenerate has the same loss freqs_im at both, and for each polarisation it radiates the same power into a channel, both claddings together, as its counterpart into the opposite channel; for degenerate modes the sum of these powers is the same. This holds for channels off the light lines of the layers and off normal incidence. It follows from the radiative waves: reversed in time, outgoing waves are combinations of outgoing waves whose coefficients conserve the energy.", "quantifier": "all patterns of real shapes, lattices, numbers of layers with positive permittivities; all wave vectors, guided-mode indices, truncations, effective permittivities and targets; all solvers of the eigenvalue problem, whatever basis they return for degenerate eigenvalues; guided modes from any branches of roots and from legume's own search; exact integrals over the profiles", "why_tests_cant": "The power radiated up and the power radiated down are not the same at opposite wave vectors when the pattern has no symmetry, and tests usually take symmetric structures. That the sum is the same for all of them follows from the reciprocity of the equations, not from a symmetry of the code.", "anchors": ["legume/gme/gme.py:compute_rad", "legume/gme/gme.py:run_im", "legume/gme/gme.py:_compute_rad_components", "legume/gme/slab_modes.py:rad_modes"]}
{"id": "C129", "title": "Losses in other units", "statement": "Run the guided-mode expansion with losses (compute_im) for a structure, and again with all lengths divided by c, all permittivities multiplied by n squared, and wave vectors, gmax and the other lengths of the search in the new units. The runs fail with the same error, or the same diffraction channels are open, all frequencies are multiplied by c / n, and for every mode with a frequency that is not degenerate the loss freqs_im and the absolute values of the couplings to all channels are multiplied by c / n; for degenerate modes the sums of the squared couplings are multiplied by (c / n) squared. The quality factor is the same in all units.", "quantifier": "all patterns, lattices, numbers of layers with positive permittivities, c > 0, n > 0; all wave vectors off normal incidence, truncations, effective permittivities and targets; all solvers of the eigenvalue problem, whatever basis they return for degenerate eigenvalues; guided modes from any branches of roots, and for n = 1 from legume's own search with exact normalisation", "why_tests_cant": "The normalisation of the radiative states, their density and the prefactor of the loss have different powers of length, and a wrong power in one of them is not seen by tests in units of the lattice constant.", "anchors": ["legume/gme/gme.py:compute_rad", "legume/gme/gme.py:run_im", "legume/gme/gme.py:_compute_rad_components", "legume/gme/slab_modes.py:rad_modes"]}
{"id": "C130", "title": "What an object shows after run", "statement": "Before the first call of run, the results of PlaneWaveExp, ExcitonSchroedEq and HopfieldPol cannot be read (AttributeError) and those of GuidedModeExp are empty. After any history of calls, a call of run that returns leaves wave vectors, energies and eigenvectors which all belong to this call and do not depend on the earlier ones; the energies are always those of the last call that stored energies. It is claimed that what an object shows at any time belongs to one call.", "quantifier": "all histories of calls of run on one object of each of the four classes, with calls failing at any stage: in the options, before the loop, at any wave vector, or after the loop", "why_tests_cant": "Tests run an object once, with arguments that do not fail; mixed states appear only after a failing call whose exception is caught.", "anchors": ["legume/pwe/pwe.py:run", "legume/gme/gme.py:run", "legume/exc/exc.py:run", "legume/pol/pol.py:run"]}
{"id": "C131", "title": "Images of exciton wave functions and reciprocal lattices", "statement": "viz.wavef shows, for the wave vector kind and the mode mind, counted from the front or back, the real or imaginary part or the density of the wave function, pixel by pixel at the points of the grid whose limits are the extent of the image; the colour scale is symmetric for parts and starts at zero for the density, and ends at the largest value; the title has the energy of the mode. The density is that of the Bloch function and has the mean one over the cell. Other objects and names raise ValueError, indices out of range IndexError. viz.reciprocal shows the reciprocal vectors of the solver, and raises AttributeError only for a HopfieldPol object that was never run.", "quantifier": "all results of runs, wave vectors, modes, resolutions, names in any case; for the mean, all wells and solvers of the eigenvalue problem; all histories of calls of run for viz.reciprocal", "why_tests_cant": "No test opens a figure; a transposed image or a missing Bloch phase looks plausible.", "anchors": ["legume/viz.py:wavef", "legume/viz.py:reciprocal", "legume/exc/exc.py:get_wavef_xy", "legume/exc/exc.py:ft_wavef_xy"]}
{"id": "C132", "title": "Losses of structures upside down and of subdivided layers", "statement": "For a structure and the same structure upside down, with the same guided modes of the two slabs, run with losses fails with the same error or stores the same frequencies at every wave vector; the same channels are open in the exchanged claddings; the losses of every mode with a simple eigenvalue and no channel on a light line or at normal incidence are the same, and so is the power radiated with each polarisation into each plane wave through the exchanged cladding; for degenerate modes the sums of the powers are the same. The same holds, with the claddings in place, when one layer is written as two layers of the same material and pattern. It also holds when each structure has the guided modes found by its own search, with root finders that give any zero in each bracket, if the modes of each polarisation are further apart than the step of the search and no sampled frequency is on a light line; neither is needed for one layer turned upside down, nor for a cut of one of several layers.", "quantifier": "all structures with any shapes, wave vectors, cut-offs, numbers of stored modes, eigenvalue solvers, guided modes that are roots of the dispersion relation, and all ways of cutting any layer", "why_tests_cant": "Tests have symmetric slabs of one layer; an error in one cladding or in the phases of layers off the centre would not be seen.", "anchors": ["legume/gme/gme.py:run", "legume/gme/gme.py:compute_rad", "legume/gme/gme.py:_compute_rad_components", "legume/gme/slab_modes.py:rad_modes", "legume/gme/slab_modes.py:guided_modes"]}
{"id": "C133", "title": "Exciton energies of rotated, mirrored and rescaled wells", "statement": "If the pattern of a quantum well is rotated or mirrored with its lattice, ExcitonSchroedEq at the rotated wave vectors returns the same energies, for both truncations. If in addition all lengths are divided by c while the unit of length a, or the square root of the mass, is multiplied by c, the run with gmax and the wave vectors multiplied by c returns the same energies, for wells with at most one shape. If a rotation or mirror maps every shape onto a shape of the well and the plane waves onto themselves, the energies at a wave vector and at its image are the same, for one shape or a cell of area 1. With two shapes, a mere change of the unit of length changes the energies, as the coefficients are divided by the area once more for every shape which follows.", "quantifier": "all lattices resolved by the code, all wells with real shapes and any potential, all similarities of the plane, truncations, cutoffs, lists of wave vectors, numbers of energies and correct eigensolvers", "why_tests_cant": "Tests compute excitons of one disc in a cell of area one in one orientation; the dependence on the unit of length with several shapes is not seen there.", "anchors": ["legume/exc/exc.py:141-217", "legume/exc/exc.py:219-294", "legume/exc/exc.py:306-385", "legume/phc/layer.py:compute_exc_ft"]}
{"id": "C134", "title": "Fields of modes in rotated and mirrored structures", "statement": "If lattice, shapes of all layers and wave vectors are rotated or mirrored, every mode of the original structure found by GuidedModeExp gives a mode of the other one with the same eigenvalue and with expansion coefficients of the same moduli. The displacement and electric fields of that mode at the mapped point are those of the original at the original point, mapped as vectors, and the magnetic field is mapped as an axial vector, so that a mirror changes its sign in addition.", "quantifier": "all resolved lattices, all stacks of layers whose shapes are mapped, rotations by any angle and mirrors about any axis, all cutoffs, lists of guided bands, mode eigenvectors, heights and points of the plane, for any root finder and any evaluation of the overlap integrals", "why_tests_cant": "A test would compare fields at a few points of one structure and angle, up to phases which the eigensolver chooses freely; nothing in the test suite compares the fields of two structures.", "anchors": ["legume/gme/gme.py:get_field_ft", "legume/gme/gme.py:get_field_xy", "legume/gme/gme.py:_construct_mat", "legume/gme/matrix_elements.py"]}
{"id": "C135", "title": "Polaritons in rotated and mirrored samples", "statement": "If a sample with any number of quantum wells is rotated or mirrored, the vector of the square roots of the oscillator strengths of each well being mapped with it up to a sign, PolaritonEquation returns the same energies at the mapped wave vectors. So the energies of wells with the dipole along z stay the same for every angle, and half a turn never matters when it is in the plane. With equal strengths along x and y, which describe an isotropic well, the energies do change under a quarter turn, as the fields are projected on one fixed direction instead of being summed over two polarisations.", "quantifier": "all numbers of wells and modes, wells resolved by the code with real shapes, similarities of scale 1 of the plane, truncations, cutoffs, wave vectors, photonic modes and losses, correct eigensolvers", "why_tests_cant": "Tests use one structure in one orientation; that an isotropic well has a preferred direction in the code is seen only if the same sample is described in two orientations.", "anchors": ["legume/pol/pol.py:118-180", "legume/pol/pol.py:182-260", "legume/exc/exc.py:306-385"]}
{"id": "C136", "title": "Choice of primitive vectors", "statement": "The same crystal can be described by different primitive vectors of one lattice. If both pairs of reciprocal vectors enclose angles between 30 and 150 degrees, and no reciprocal lattice vector is longer than the cutoff by less than the rounding steps of the code, GuidedModeExp with the default truncation returns the same outcome (frequencies or the same error) at every wave vector, and ExcitonSchroedEq returns the same exciton energies. For more oblique vectors the plane waves inside the cutoff are not all found, see the property on plane waves.", "quantifier": "all lattices and pairs of primitive vectors meeting the condition on the angles, cutoffs, stacks of layers with shapes of real permittivity, lists of wave vectors, guided bands and options, any root finder, correct eigensolvers; overlap integrals without the regularisation of the code", "why_tests_cant": "A test would compare two descriptions of one lattice at one cutoff; the set of plane waves is the same only because the code searches a sufficiently large window, which depends on the angle and the cutoff.", "anchors": ["legume/gme/gme.py:211-256", "legume/gme/gme.py:442-521", "legume/gme/gme.py:645-701", "legume/exc/exc.py:181-208"]}
{"id": "C137", "title": "Supercells in the plane-wave expansion", "statement": "The same crystal can be described by a supercell of N1 by N2 unit cells with all holes repeated. If PlaneWaveExp returns frequencies of the supercell, it returns frequencies of the cell at the same wave vectors (no error), every frequency of the cell is also a frequency of the supercell when all of these are asked for, with multiplicity and in the same order, and for any numbers of frequencies the i-th one of the supercell is not larger than the i-th one of the cell (folded bands).", "quantifier": "all lattices whose vectors the code can tell apart, numbers N1 and N2, shapes of real permittivity in any order, cutoffs, wave vectors, polarisations, numbers of frequencies, correct eigensolvers", "why_tests_cant": "A test would compare one supercell with one cell at one cutoff; the plane waves of the cell are among those of the supercell only because of how the window of indices is rounded.", "anchors": ["legume/pwe/pwe.py:84-199", "legume/phc/layer.py:140-157"]}
{"id": "C138", "title": "Supercells in the guided-mode expansion", "statement": "If GuidedModeExp with the default truncation returns modes of a structure described by one cell and by a supercell of N1 by N2 cells, with the same cutoff and options, then at every wave vector the frequencies of the cell are among those of the supercell when all of these are asked for, and for any numbers of modes the i-th frequency of the supercell is not larger than the i-th one of the cell.", "quantifier": "all lattices with angles between 30 and 150 degrees whose vectors the code can tell apart, no reciprocal vector just outside the cutoff, layers without shapes or patterned beyond the threshold of the code, shapes of real permittivity, guided modes depending on the length of the wave vector, overlap integrals with or without the regularisation, correct eigensolvers", "why_tests_cant": "A test would compare two runs; that the guided modes of the supercell at foreign plane waves decouple exactly holds for every stack and cutoff only because all couplings are transforms at foreign vectors, which vanish.", "anchors": ["legume/gme/gme.py:211-256", "legume/gme/gme.py:442-521", "legume/gme/gme.py:645-701", "legume/gme/gme.py:1040-1180"]}
{"id": "C139", "title": "Timing reports", "statement": "After GuidedModeExp.run with a clock that does not go back, the stored times of all stages (guided modes, inversion, construction of the matrices, symmetry, diagonalization) are non-negative and add up to at most total_time, so that every printed share lies between 0 and 100 per cent and its bar has twenty cells. The report raises ZeroDivisionError exactly if the clock shows the same time at the start and at the end, and prints nothing without verbose. For ExcitonSchroedEq the time of the diagonalizations is at most the total time, and only a printed table can raise.", "quantifier": "all sequences of clock readings, numbers of wave vectors, both ways of computing guided modes, with and without kz_symmetry, both print backends", "why_tests_cant": "Tests do not look at times, and a clock with coarse steps or a slow search for guided modes does not occur in them.", "anchors": ["legume/gme/gme.py:955-1011", "legume/gme/gme.py:1148-1171", "legume/exc/exc.py:327-380", "legume/print_utils.py:40-236"]}
{"id": "C140", "title": "Energies in eV", "statement": "A reduced frequency times the factor of from_freq_to_e is the photon energy h c f / a in eV with the constants of the SI of 2019 up to 3e-10; the kinetic energy of an exciton is (h / 2 pi)^2 |k + g|^2 / 2M in eV up to 1e-15; the factor of all polariton couplings is negative imaginary with the square hbar^2 / (4 m_e epsilon_0 a), so that couplings fall with the square root of the lattice constant.", "quantifier": "all positive lattice constants, masses, frequencies and wave vectors", "why_tests_cant": "A test compares one value with a reference computed from the same constants; here the constants of the file are compared with the definitions of the SI and with each other.", "anchors": ["legume/constants.py:12-18", "legume/utils.py:253-282", "legume/exc/exc.py:341-347", "legume/pol/pol.py:170-172"]}
{"id": "C141", "title": "Effective permittivities set by hand", "statement": "After any sequence of calls that add layers and shapes and assign eps_eff, including failed assignments, reading eps_eff of a cladding or a layer gives the value assigned last since the region exists and raises ValueError if there is none or it was None. A run with eps_eff='custom' gets exactly these values from below to above and raises ValueError exactly if one of them is missing. Only layers of shapes can be expanded in plane waves: a plain layer raises, a free-form layer and a plain shape cannot be created at all.", "quantifier": "all sequences of calls on a structure; all regions; all classes of layers", "why_tests_cant": "A test sets values once and in one order; the statement covers resets, values set before later layers are added and calls that fail.", "anchors": ["legume/phc/layer.py:13-74", "legume/phc/layer.py:212-248", "legume/phc/shapes.py:11-61", "legume/gme/gme.py:905-927", "legume/pwe/pwe.py:11-36"]}
{"id": "C142", "title": "Supercells of quantum wells fold the exciton energies", "statement": "Describing the same quantum well by a supercell of several cells does not change the physics: with the same cutoff and wave vectors, the exciton energies returned for the cell are among those returned for the supercell when all of these are asked for, and the i-th energy of the supercell is never above the i-th one of the cell.", "quantifier": "for all lattices, numbers of cells, shapes, potentials, cutoffs, wave vectors and numbers of energies", "why_tests_cant": "Tests would compare a few energies for one supercell within a tolerance; here the Hamiltonian of the cell is shown to be a decoupled block for all supercells, and the weights with which the code adds shapes are shown to break this in general.", "anchors": ["legume/exc/exc.py:141-385", "legume/phc/layer.py:159-178"]}
{"id": "C143", "title": "Gradients of band frequencies", "statement": "With the autograd backend, the gradient of a weighted sum of the frequencies returned by PlaneWaveExp.run with respect to any parameter on which the permittivity of the layer depends differentiably is its true derivative up to a relative error of at most 1e-10/(2 pi f)^2 per frequency f, at all wave vectors together, provided that the frequencies at each wave vector are different from each other and those with a weight are not zero.", "quantifier": "all lattices, permittivities, parameters, polarisations, wave vectors, numbers of frequencies and weights", "why_tests_cant": "Tests compare with finite differences within a few per cent for one structure; here the chain of registered rules is composed and the frequencies are shown to be differentiable, for all structures.", "anchors": ["legume/pwe/pwe.py:132-199", "legume/primitives.py:35-151"]}
{"id": "C144", "title": "Gradients of exciton energies", "statement": "With the autograd backend, the gradient of a weighted sum of the energies returned by ExcitonSchroedEq.run with respect to any parameter on which the potential of the well depends differentiably is exactly its derivative, for both ways of truncating the plane waves and all wave vectors together, provided that the energies at each wave vector are different from each other.", "quantifier": "all wells, parameters, truncations, wave vectors, numbers of energies and weights", "why_tests_cant": "Tests compare with finite differences for one well; here the chain of registered rules is composed and the energies are shown to be differentiable, for all wells.", "anchors": ["legume/exc/exc.py:219-294", "legume/exc/exc.py:336-381", "legume/primitives.py:48-151"]}
{"id": "C145", "title": "Gradients of guided-mode frequencies with fixed guided modes", "statement": "With the autograd backend and gradients='approx', for any parameter that changes the permittivities of layers but not the effective permittivities and thicknesses of the stack (for example the positions of the shapes), the gradient of a weighted sum of the frequencies returned by GuidedModeExp.run is its true derivative up to a relative error of at most 1e-10/(2 pi f)^2 per frequency f, provided that the distances of the frequencies from eig_sigma are different from each other at each wave vector and the frequencies with a weight are not zero.", "quantifier": "all stacks, guided modes, layers, parameters, wave vectors, eig_sigma, numbers of frequencies and weights", "why_tests_cant": "Tests compare with finite differences within a few per cent for one structure; here the backward pass through the blocks, their completion to a Hermitian matrix, the inverse matrices and the look-up of the samples is composed for all structures.", "anchors": ["legume/gme/gme.py:517-520", "legume/gme/gme.py:579-643", "legume/gme/gme.py:672-701", "legume/gme/gme.py:1049-1060", "legume/gme/matrix_elements.py:33-168", "legume/primitives.py:35-151"]}
{"id": "C146", "title": "Wave vectors of a run are independent", "statement": "A run of any of the solvers over a list of wave vectors succeeds exactly if the run over each of them alone succeeds, and returns the results of the single runs in the same order: frequencies of the plane-wave expansion, frequencies and losses of the guided-mode expansion with guided modes computed at the wave vectors ('exact'), the same with kz_symmetry (each wave vector with its direction), exciton energies, and polariton energies (from what the photonic solver found at that wave vector). With interpolated guided modes ('interp') runs over lists with the same longest wave vector agree wherever the lists share a wave vector.", "quantifier": "All structures, options and non-empty lists of wave vectors, any eigensolver, root finder and sort.", "why_tests_cant": "A test compares a few runs at a few wave vectors; that no quantity computed for one wave vector leaks into another must hold for every list and every order.", "anchors": ["legume/gme/gme.py:523-643", "legume/gme/gme.py:949-1060", "legume/gme/gme.py:1588-1781", "legume/pwe/pwe.py:142-199", "legume/exc/exc.py:306-385", "legume/pol/pol.py:156-350"]}
{"id": "C147", "title": "Texts of solver objects", "statement": "The text of a GuidedModeExp shows gmax and the options gmode_compute, gmode_inds, gmode_step, gradients, eig_solver, eig_sigma, eps_eff with the values of the last accepted call of run, and only gmax before the first; the text of a HopfieldPol shows the same and the positions of the wells; that of a PlaneWaveExp shows gmax, eps_eff and the polarisation and number of eigenvalues of the last call; that of an ExcitonSchroedEq shows each quantity with the right unit.", "quantifier": "All histories of accepted and rejected calls, all values of the options and of the parameters of a well.", "why_tests_cant": "A test prints one object; which values are shown depends on the whole history of calls, and a wrong unit is invisible unless the number is compared with the quantity.", "anchors": ["legume/gme/gme.py:84-101", "legume/gme/gme.py:703-823", "legume/pwe/pwe.py:38-52", "legume/pwe/pwe.py:158-161", "legume/exc/exc.py:98-111", "legume/pol/pol.py:63-81"]}
{"id": "C148", "title": "Using a minimiser again", "statement": "Whatever was done before with a Minimize object, a call of adam with accepted bounds returns the parameters and objectives of a fresh run, sets the counter to the number of epochs and prints one line per epoch with its number, its objective and on demand the parameters at which it was computed; a call with rejected bounds leaves counter, history and printed lines alone; lists of objectives returned earlier are never changed by later calls.", "quantifier": "All histories of calls on one object, all objectives, bounds, step sizes and numbers of epochs.", "why_tests_cant": "Tests use a fresh object for each run; aliasing between returned lists and state kept from earlier runs shows only in histories.", "anchors": ["legume/minimize.py:12-31", "legume/minimize.py:58-66", "legume/minimize.py:95-140"]}
{"id": "C149", "title": "The slope of the bands is bounded", "statement": "In a plane-wave run the frequencies with the same number at two wave vectors differ by at most |k - k'| / (2 pi sqrt(eps_min)), the difference in a uniform medium with the lowest permittivity of the layer, so no band is steeper than the light line of that medium. In an exciton run the square roots of the energies above the bottom of the potential differ by at most hbar |k - k'| / sqrt(2 M a^2 e), so no band is steeper than that of a free exciton with the same energy.", "quantifier": "All lists of wave vectors, layers with disjoint drawn shapes of positive permittivity, wells with drawn shapes, both polarisations and truncations, cutoffs and numbers of modes, correct eigensolvers; up to the number of plane waves times the error of a Fourier coefficient.", "why_tests_cant": "A test sees the bands at a few wave vectors of one structure; that neighbouring points of a band can never jump is a statement on all pairs of wave vectors and all structures.", "anchors": ["legume/pwe/pwe.py:142-199", "legume/exc/exc.py:306-385", "legume/phc/layer.py:140-157"]}
{"id": "C150", "title": "Gradients of whole runs are correct when the effective permittivities are fixed", "statement": "Take a run of the guided-mode solver with truncate_g='abs' whose layers depend on a parameter only through the values that compute_ft returns, the effective permittivities being fixed (set by hand, or eps_eff='background' with only the shapes varying), or a run of the plane-wave solver. If the transforms are differentiable, no layer lies exactly on the threshold that decides whether it is homogeneous, the permittivity matrices are invertible and the returned frequencies are not degenerate, then the run still succeeds nearby, every objective sum(c * freqs) over non-zero frequencies at any list of wave vectors is differentiable, and the gradient that automatic differentiation with the registered rules gives with respect to the values returned by compute_ft, contracted with their derivatives, differs from the derivative of the objective by at most sum(|c f'| 1e-10 / (2 pi f)^2).", "quantifier": "for all lattices, cut-offs, numbers of layers and shapes, families of transforms, wave vectors, weights and all correct eigensolvers and argsort functions", "why_tests_cant": "a test compares a finite difference with the gradient for one structure; it cannot cover all structures, all objectives and the exact error of the regularised square root", "anchors": ["legume/gme/gme.py:442-520", "legume/pwe/pwe.py:112-199", "legume/primitives.py:1-140"]}
{"id": "C151", "title": "Frequencies depend continuously on the structure, also where bands cross", "statement": "If the values returned by compute_ft and the wave vectors depend continuously on parameters (of any number, or in any topological space) and PlaneWaveExp.run succeeds for some values of them, it succeeds for all values nearby, and every entry of the returned freqs is continuous there, also where frequencies are degenerate or vanish. The same holds for GuidedModeExp.run with truncate_g='abs' and eig_sigma=0 when the effective permittivities are fixed, no layer is exactly at the threshold below which it is treated as homogeneous and no mean permittivity vanishes.", "quantifier": "All lattices, shapes, parameters, wave vectors, polarizations, gmax, numeig, and all eigensolvers and sorting routines that are correct.", "why_tests_cant": "Tests compare finitely many parameters at finitely many points; a jump at a degenerate point or at one special parameter is invisible to them.", "anchors": ["legume/pwe/pwe.py:142-199", "legume/gme/gme.py:826-1060", "legume/gme/gme.py:500-574"]}
{"id": "C152", "title": "Small changes of permittivities move frequencies by a bounded factor", "statement": "If the permittivity of the background and of every shape of a layer changes by at most D (up or down, each by its own amount) and q is D over the lowest permittivity, corrected for the documented accuracy of the shape transforms, with q < 1, then PlaneWaveExp.run succeeds before and after the change and for every wave vector and band f' lies between f/sqrt(1+q) and f/sqrt(1-q). The same holds for GuidedModeExp.run with eps_eff='custom' kept at the same values, when in every layer the relative change is at most q, also with the guided modes that the code itself finds.", "quantifier": "All lattices, shapes that do not overlap, changes of permittivities, wave vectors, polarizations, gmax, numeig, and all eigensolvers and sorting routines that are correct.", "why_tests_cant": "Tests check finitely many changes of finitely many structures and bands; a single sensitive band or wave vector escapes them.", "anchors": ["legume/pwe/pwe.py:142-199", "legume/pwe/pwe.py:80-141", "legume/gme/gme.py:500-574", "legume/gme/gme.py:826-1060"]}
{"id": "C153", "title": "The slope of a simple band is the energy flux of its mode", "statement": "Run `PlaneWaveExp` at a wave vector k for a layer with shapes inside the cell, and take a returned frequency f that is not zero and that no other frequency at k equals (for 'tm': no plane wave has the wave vector zero). The frequency returned at the same position for the wave vectors k + t u has a derivative at t = 0 for every direction u. It is 1/(2 pi) times the energy flux along u, the mean over the cell of Re(E x H*), of the mode whose magnetic field has the entries of the returned eigenvector as amplitudes, with D = (i/w) curl H and E = D/eps in the truncated basis. The electric energy of this mode, the mean of D* E, equals its magnetic energy. (The arrays that the code itself returns for 'd' and 'e' lack the factor |k+G|, see C73, so that they do not give the flux.) For `ExcitonSchroedEq`, the derivative of an energy that no other energy at k equals is hbar^2/(M a^2 e) times the mean of (k+G) u over the plane waves of the wave function.", "quantifier": "all layers and wells with shapes inside the cell, gmax, wave vectors, directions, polarisations and simple bands", "why_tests_cant": "Finite differences of computed bands give approximations at a few wave vectors and cannot tell whether the derivative exists.", "anchors": ["legume/pwe/pwe.py:142-199", "legume/pwe/pwe.py:234-311", "legume/exc/exc.py:336-385"]}
{"id": "C154", "title": "Gradients are right at degenerate bands if these enter the objective symmetrically", "statement": "Take the gradient of a weighted sum of returned frequencies or energies with respect to a parameter of the structure. Bands may be degenerate, but let bands with the same value at a wave vector have the same weight, where bands that are not returned count with weight 0, and let no frequency with a weight be zero. Then the weighted sum has a derivative, and automatic differentiation with the rules registered in the package computes it: exactly for `ExcitonSchroedEq`, and up to a relative error of 10^-10/(2 pi f)^2 for each frequency f for `PlaneWaveExp` and for `GuidedModeExp` with `eig_sigma=0` and effective permittivities that do not depend on the parameter. The condition on the weights is needed: for two degenerate plane waves of an exciton the lower energy has no derivative with respect to the potential that couples them, and the gradient that the rules return depends on which eigenvectors of the degenerate pair the solver chose.", "quantifier": "all layers, structures and wells whose Fourier transforms depend differentiably on the parameter, gmax, lists of wave vectors, numbers of bands, choices of eigenvectors and weights that agree on degenerate bands", "why_tests_cant": "The eigenvectors of degenerate bands are arbitrary and a test sees only the ones that the solver happens to return; a finite difference cannot show that a derivative does not exist.", "anchors": ["legume/primitives.py:103-137", "legume/pwe/pwe.py:142-199", "legume/exc/exc.py:336-385", "legume/gme/gme.py:1012-1060"]}
{"id": "C155", "title": "All bands together obey sum rules, and only one frequency vanishes", "statement": "With `numeig` at least the number of plane waves, the squares of the frequencies returned by `PlaneWaveExp` for 'te' and for 'tm' have the same sum at every wave vector. For every `numeig` and both polarisations a returned frequency is zero exactly if it is the first one at its wave vector k and -k is one of the plane waves. With `numeig` at least the number of plane waves, the energies returned by `ExcitonSchroedEq` at k sum to the kinetic energies hbar^2 |k+G|^2 / (2 M a^2 e) of all plane waves G plus, for each of them, the energy and the loss of the free exciton and the mean of the potential: V times the filled fraction of the cell, raised by |V| when V is negative.", "quantifier": "all drawn layers whose permittivities exceed the total error of the Bessel function argument, wells with one real shape or a cell of area 1, both truncations, gmax, lists of wave vectors and numbers of bands", "why_tests_cant": "Tests compare a few of the lowest bands with stored numbers; they never compute all of them, and no list of wave vectors shows that no other frequency vanishes.", "anchors": ["legume/pwe/pwe.py:142-199", "legume/exc/exc.py:288-385", "legume/phc/layer.py:159-178"]}
{"id": "C156", "title": "With `truncate_g='tbt'` too, displaced patterns and opposite wave vectors have the same frequencies", "statement": "A run of `GuidedModeExp` with `truncate_g='tbt'` returns the same frequencies, or raises the same error, when (a) the shapes of all layers and claddings are displaced by the same in-plane vector, provided that the Fourier transform of every layer is real at all reciprocal lattice vectors or neither of its two sample arrays is almost real; (b) shapes are reordered, shapes with the permittivity of the background are added, or single shapes are moved by lattice vectors, without any condition; (c) all wave vectors are replaced by their opposites, with the overlap integrals exact, provided that of the two sample arrays of each layer both or neither are almost real.", "quantifier": "all lattices, stacks, real shapes, displacements, gmax, effective permittivities, lists of wave vectors, numbers of bands and `eig_sigma`; any guided modes for (a) and (b), those from branches of roots of the dispersion relation for (c)", "why_tests_cant": "The example with 'tbt' compares two wave vectors of one structure; whether results depend on the origin or the sign of the wave vector is decided by the assembly of the Toeplitz blocks for every structure.", "anchors": ["legume/gme/gme.py:182-209", "legume/gme/gme.py:403-440", "legume/gme/gme.py:523-668", "legume/gme/gme.py:826-1060", "legume/utils.py:142-158"]}
{"id": "C157", "title": "With `truncate_g='tbt'` too, frequencies lie between multiples of those of the guided modes of the effective slab", "statement": "In a run of `GuidedModeExp` with `truncate_g='tbt'` and exact overlap integrals: (a) for a layer of shapes which do not overlap, whose samples are stored without loss, the permittivity matrix lies between the lowest and the highest permittivity, up to the number of plane waves times the error of a Fourier coefficient, its inversion never fails, and the inverse lies between the inverse bounds; (b) at every wave vector the frequency number m lies between sqrt(alpha) and sqrt(beta) times the m-th lowest frequency of the guided modes expanded in, where alpha and beta bound the ratio of the effective permittivity to those in the layers; (c) in structures without shapes and with the average permittivities as the effective ones, the frequencies are exactly the lowest of those of the guided modes; (d) `only_gmodes=True` is refused with ValueError.", "quantifier": "all lattices (with resolved reciprocal vectors), slabs with positive permittivities, shapes that do not overlap, gmax, lists of wave vectors and numbers of bands; any guided modes which solve the dispersion relation, without repetitions; `eig_sigma=0`", "why_tests_cant": "Tests with 'tbt' compare a handful of frequencies with stored values; bounds and the exact values without patterning hold for every structure and every truncation only by proof.", "anchors": ["legume/gme/gme.py:182-209", "legume/gme/gme.py:403-440", "legume/gme/gme.py:523-668", "legume/gme/gme.py:826-1060", "legume/utils.py:142-158"]}
{"id": "C158", "title": "With `truncate_g='tbt'` too, more guided modes or higher permittivities never raise a frequency", "statement": "In runs of `GuidedModeExp` with `truncate_g='tbt'`, `eig_sigma=0` and exact overlap integrals: (a) if the guided modes of one run are among those of another and everything else is equal, then at every wave vector no frequency of the second is higher; (b) with the effective permittivities set by hand, raising the permittivities of the background and of the shapes in some layers never raises a frequency. Both hold for layers of shapes which do not overlap, with positive permittivities and samples stored without loss.", "quantifier": "all lattices, stacks, shapes that do not overlap, gmax, increments (above the error of the Fourier coefficients of the increments), lists of wave vectors, numbers of bands; any guided modes which decay in the claddings; any eigenvalue solver that returns the eigenvalues of Hermitian matrices", "why_tests_cant": "Tests compare single structures with stored values; that order is kept for all structures and truncations follows from the variational principle for the matrix assembled from Toeplitz blocks.", "anchors": ["legume/gme/gme.py:182-209", "legume/gme/gme.py:403-440", "legume/gme/gme.py:523-668", "legume/gme/gme.py:826-1060", "legume/utils.py:142-158"]}
{"id": "C159", "title": "numeig and eig_sigma only select bands", "statement": "In the guided-mode expansion with either truncation: if a run returns, so does the run with a smaller `numeig`, and at every wave vector its frequencies are among the other ones, in the same order; a run reports `numeig` frequencies in increasing order at every wave vector, and any frequency found with another `eig_sigma` and `numeig` is among them or not closer to `eig_sigma` than any of them. A run of `PlaneWaveExp` or `ExcitonSchroedEq` with a smaller `numeig` reports exactly the first of the bands, or raises the same error.", "quantifier": "all structures, plane waves, effective permittivities, guided modes, lists of wave vectors, targets and numbers of bands; any eigenvalue solver and any sorting function that sorts (for plane waves and excitons any function)", "why_tests_cant": "A test compares a few settings for one structure; that no setting changes or loses a band is a statement about all of them.", "anchors": ["legume/gme/gme.py:826-1060", "legume/pwe/pwe.py:142-199", "legume/exc/exc.py:336-375", "legume/utils.py:193-199"]}
{"id": "C160", "title": "Bands with parallelogram truncation scale with the lengths and the refractive index", "statement": "Run the guided-mode expansion with `truncate_g='tbt'` for a slab and for the slab with all lengths divided by c > 0 and all permittivities multiplied by n² (n > 0), at the wave vectors times c and with gmax, target frequency and shifts in the new units. With the same guided modes of the effective slab in the new units, both runs raise the same error or the frequencies of the second are c / n times those of the first, in the same order. If n = 1 this holds with the guided modes that legume's own root search finds, if its absolute thresholds do not tell the units apart. Unlike with circular truncation gmax may equal the length of a reciprocal vector.", "quantifier": "all lattices resolved by the code's comparison of vectors with zero, numbers of layers and shapes whose transforms scale with their size; all c, n > 0 for which every layer passes or fails the code's test for uniform layers in both (automatic for n = 1); all wave vectors, gmax, effective permittivities, targets and numbers of modes; exact integrals over the profiles", "why_tests_cant": "A test compares two units for one structure up to a tolerance. It cannot exclude that the choice of plane waves or the storage of Toeplitz blocks as real numbers depends on the unit for some structure.", "anchors": ["legume/gme/gme.py:182-209", "legume/gme/gme.py:403-440", "legume/gme/gme.py:645-668", "legume/gme/gme.py:826-1060", "legume/utils.py:142-158"]}
{"id": "C161", "title": "Both truncations give the same bands on the same plane waves", "statement": "If a guided-mode run with `truncate_g='abs'` and one with `truncate_g='tbt'` (each with its own `gmax`) keep the same plane waves, then both report the same frequencies in the same order at all wave vectors, or raise the same error, although their permittivity matrices are complex conjugates of each other.", "quantifier": "all lattices, layers and shapes whose samples of the permittivity the 'tbt' branch stores without loss and for which both tests for uniform layers have the same outcome; all guided modes of the effective slab, wave vectors, effective permittivities, targets and numbers of bands; exact integrals over the profiles", "why_tests_cant": "A test compares one crystal, usually one with a centre of inversion, where both matrices are equal; that conjugation does not matter for crystals without one is a statement about all patterns.", "anchors": ["legume/gme/gme.py:182-256", "legume/gme/gme.py:403-521", "legume/gme/gme.py:645-701", "legume/gme/gme.py:826-1060"]}
{"id": "C162", "title": "A mirror that the parallelogram of plane waves lacks is refused", "statement": "A run with `truncate_g='tbt'` and `kz_symmetry` never returns bands if, at some wave vector, the mirror image of the longest plane wave is not among the plane waves kept. In particular no run in a hexagonal lattice with more than one plane wave returns if it contains the centre of the zone with direction 30 degrees, although this is a mirror of the lattice and the direction is accepted. With `only_gmodes` such a run raises ValueError for all angles.", "quantifier": "all structures, cutoffs, guided-mode options, kinds of symmetry, dense and sparse separation, thresholds, lists of wave vectors and angles, effective permittivities, targets and numbers of bands from one on; for the second part all hexagonal lattices of unit length and non-negative `delta_gx`", "why_tests_cant": "A test that succeeds for one direction says nothing about the others; that no cutoff makes the parallelogram symmetric is a statement about all of them.", "anchors": ["legume/gme/gme.py:182-209", "legume/gme/gme.py:258-282", "legume/gme/gme.py:880-903", "legume/gme/gme.py:1022-1046", "legume/gme/gme.py:1231-1310", "legume/gme/gme.py:1362-1440"]}
{"id": "C163", "title": "Runs with kz_symmetry and parallelogram truncation find the modes of the run without symmetry", "statement": "In a crystal whose pattern and parallelogram of plane waves are mapped onto themselves by the mirror at every wave vector, a run with `truncate_g='tbt'` and `kz_symmetry='both'` returns only if the run without symmetry does, its frequencies are equally far from `eig_sigma`, and they are the same if `eig_sigma` is not positive. Runs with 'even' and 'odd' split the modes of the run without symmetry, whatever numbers of modes are asked for. If all guided modes asked for exist and at every wave vector a plane wave in use lies off the mirror plane, such runs fail only for the number of modes: without symmetry, with 'even' and with 'odd' they return exactly when at most as many modes are asked for as there are states, even states and odd states.", "quantifier": "all lattices, layers and shapes with that symmetry whose two sample arrays are stored with the same type; all wave vectors on the mirror planes, guided-mode options, dense and sparse separation, thresholds, effective permittivities, targets and numbers of bands; exact integrals over the profiles", "why_tests_cant": "The check that would refuse the combination is commented out in the code; a test of one crystal cannot show that the block-Toeplitz matrix of every symmetric crystal commutes with the mirror.", "anchors": ["legume/gme/gme.py:182-209", "legume/gme/gme.py:403-440", "legume/gme/gme.py:880-903", "legume/gme/gme.py:1022-1158", "legume/gme/gme.py:1231-1523"]}

{"id": "C01", "title": "Generated symmetry set is a group containing the generators", "statement": "Whenever Symmetry.from_generator(G, inversion) returns, the operations listed by get_symmetry_operations() contain the identity and every generator (and its negative if inversion=True), and are closed under matrix product.", "quantifier": "every list of generator matrices in every dimension, both values of the inversion flag", "why_tests_cant": "Tests compare group orders of a handful of named groups; closure must hold for every generator list for which the call returns, including lists with duplicates, identities and generators that already contain -1.", "anchors": ["src/tight_binding_redweasel/symmetry.py: Symmetry.from_generator, Symmetry.__init__, Symmetry.get_symmetry_operations"]}
{"id": "C02", "title": "Generated symmetry set contains nothing but products of the generators", "statement": "Every operation listed by from_generator(G, inversion) is a finite product of generators (and of -1 when inversion=True); no superfluous operation is ever added. Likewise the product a * b of two symmetries lists a group that contains the operations of both and nothing but products of their operations.", "quantifier": "every list of generators, every dimension, both inversion flags", "why_tests_cant": "An extra operation silently over-symmetrises data; tests only sample a few groups.", "anchors": ["src/tight_binding_redweasel/symmetry.py: Symmetry.from_generator", "src/tight_binding_redweasel/symmetry.py: Symmetry.__mul__"]}
{"id": "C03", "title": "from_generator always terminates, succeeds for small groups and rejects the rest with ValueError", "statement": "from_generator returns a symmetry exactly when all generators have |det|=1 and the generated set stays below 200 operations, and otherwise raises ValueError; it never loops forever and never returns a truncated (non-closed) set because its round limit ran out.", "quantifier": "every list of generators, including those that generate infinite groups", "why_tests_cant": "Infinite groups and groups near the cut-off cannot be enumerated by tests; the claim that the 200-round loop bound is never the reason for stopping needs an argument over all executions.", "anchors": ["src/tight_binding_redweasel/symmetry.py: Symmetry.from_generator"]}
{"id": "C04", "title": "Constructing a Symmetry keeps exactly the given operations", "statement": "For every operation list S whose first entry is the identity and whose determinants are +-1, the set of get_symmetry_operations() of Symmetry(S, inversion) is S, together with -S if inversion=True. In particular the automatic detection of inversion in odd dimension (which drops the operations with negative determinant and sets the flag) and the expansion in even dimension neither lose nor invent an operation. Every other list is rejected with ValueError.", "quantifier": "every list of square matrices, every dimension, both flags, also when S is not a group", "why_tests_cant": "Requires case analysis over parity of the dimension and closure of S under negation for arbitrary lists.", "anchors": ["src/tight_binding_redweasel/symmetry.py: Symmetry.__init__, get_symmetry_operations"]}
{"id": "C05", "title": "len(symmetry) is the number of distinct operations", "statement": "For every symmetry produced by from_generator in odd dimension, or with inversion=False, len(sym) equals the number of distinct operations and no operation is listed twice. In even dimension with inversion=True this holds exactly when the generators alone do not already generate -1 (when they do, every operation is listed twice: a defect, see the counterexample theorem).", "quantifier": "every generator list, dimension and flag", "why_tests_cant": "len() is used as a normalisation (r_class_size, averages); a double count is invisible in tests that use odd dimension only.", "anchors": ["src/tight_binding_redweasel/symmetry.py: Symmetry.__len__, __init__, from_generator, r_class_size"]}
{"id": "C06", "title": "Change of basis of a symmetry", "statement": "sym.transform(B) consists of exactly the operations B s B^-1, keeps the group property and the length, and transforming back with B^-1 gives the original symmetry; dual() is an involution and maps products to products.", "quantifier": "every symmetry and every invertible B", "why_tests_cant": "Algebraic law over all invertible matrices.", "anchors": ["src/tight_binding_redweasel/symmetry.py: Symmetry.transform, Symmetry.dual"]}
{"id": "C07", "title": "r_class_size is the number of distinct images", "statement": "For every symmetry whose operations form a group, r_class_size(r) is the number of distinct positions s r with s an operation (orbit-stabiliser).", "quantifier": "every finite matrix group with or without the inversion flag, every position r", "why_tests_cant": "Tests evaluate a few neighbours of cubic lattices.", "anchors": ["src/tight_binding_redweasel/symmetry.py: Symmetry.r_class_size"]}
{"id": "C08", "title": "k_weight counts the operations that fix k modulo reciprocal lattice vectors", "statement": "k_weight(k) = 1/#{operations s : s k - k is an integer vector}; it lies in (0,1], equals 1/len(sym) at k=0, is the same for k and for k+g with any integer g when the operations are integer matrices, and is constant on the orbit of k for integer matrix groups.", "quantifier": "every symmetry, every k, every integer shift", "why_tests_cant": "Invariance must hold for all k and all operations.", "anchors": ["src/tight_binding_redweasel/symmetry.py: Symmetry.k_weight, pingpong_distance"]}
{"id": "C09", "title": "realize_symmetric completes the k-points: closed, complete and without repetition", "statement": "For a symmetry whose operations form a group, realize_symmetric(k) returns a list that contains every input point, contains s k for each input k and operation s, contains nothing else, and lists no point twice; the returned order names for each returned point an input point of which it is an image.", "quantifier": "every group, every finite list of k-points (also with points that are images of each other)", "why_tests_cant": "Orbit handling, sorting and adjacent-duplicate removal interact; tests use regular grids only.", "anchors": ["src/tight_binding_redweasel/symmetry.py: Symmetry.realize_symmetric"]}
{"id": "C10", "title": "realize_symmetric_data copies reference data to all images", "statement": "If no two input points are images of each other, realize_symmetric_data(k, data) assigns to each returned point the data of the unique input point of which it is an image.", "quantifier": "every group, every list of inequivalent k-points, every data array", "why_tests_cant": "Association between points and data through sort and duplicate removal must hold for all inputs.", "anchors": ["src/tight_binding_redweasel/symmetry.py: Symmetry.realize_symmetric_data, realize_symmetric"]}
{"id": "C11", "title": "reduce_symmetric_data keeps one representative per orbit", "statement": "reduce_symmetric_data returns points which are all input points with their own data, such that every input point is an image of a returned point and no two returned points are images of each other.", "quantifier": "every orthogonal group, every finite list of k-points with data", "why_tests_cant": "The loop deletes while scanning a norm-sorted list and breaks early by norm; tests sample grids.", "anchors": ["src/tight_binding_redweasel/symmetry.py: Symmetry.reduce_symmetric_data"]}
{"id": "C12", "title": "Tensor symmetrisation is a projection onto invariant tensors", "statement": "symmetrize(T) of a rank-n tensor is invariant under each operation in the symmetry's operation list, leaves invariant tensors unchanged and is therefore idempotent. (For odd rank and a symmetry with the inversion flag set, invariance under the inversion itself fails: the flag is ignored; see counterexample.)", "quantifier": "every finite group, every tensor", "why_tests_cant": "Averaging argument over all group elements.", "anchors": ["src/tight_binding_redweasel/symmetry.py: Symmetry.symmetrize"]}
{"id": "C13", "title": "equivalence_classes / conjugacy_classes partition the operations", "statement": "For every equivalence relation on the operations, equivalence_classes returns lists that together contain each operation exactly once, all members of one list are related and members of different lists are not. conjugacy_classes is the instance for conjugation in the group.", "quantifier": "every operation list, every equivalence relation", "why_tests_cant": "The algorithm pops from the list it scans backwards; index handling must be right for all lists.", "anchors": ["src/tight_binding_redweasel/symmetry.py: Symmetry.equivalence_classes, conjugacy_classes"]}
{"id": "C14", "title": "find_classes groups points into orbits", "statement": "find_classes(points) returns classes that partition the point indices; two points share a class exactly when one is the image of the other under an operation in S; each key is the smallest index of its class.", "quantifier": "every group without inversion flag, every duplicate free list of points", "why_tests_cant": "Orbits for arbitrary point sets.", "anchors": ["src/tight_binding_redweasel/symmetry.py: Symmetry.find_classes"]}
{"id": "C15", "title": "complete_neighbors represents every image exactly once up to sign", "statement": "If the operations contain -1, complete_neighbors(neighbors) contains for every input r and operation s exactly one of s^T r and -s^T r, contains nothing else, no repetition, and its first nonzero coordinate is positive. Without -1 among the operations hoppings can be lost (counterexample: none().complete_neighbors([(-1,0,0)]) is empty).", "quantifier": "every group, every neighbour list", "why_tests_cant": "Loss of a hopping term changes the physics silently; tests use cubic symmetric lists.", "anchors": ["src/tight_binding_redweasel/symmetry.py: Symmetry.complete_neighbors"]}
{"id": "C16", "title": "Neighbour lookup is exact up to sign", "statement": "try_neighbor_function(neighbors)(r) returns (i, False) only if neighbors[i]=r, (i, True) only if r is not listed and neighbors[i]=-r, and (None, None) exactly when neither r nor -r is listed; neighbor_function agrees but raises ValueError in the last case.", "quantifier": "every neighbour list and query position", "why_tests_cant": "Universal lookup contract.", "anchors": ["src/tight_binding_redweasel/symmetry.py: neighbor_function, try_neighbor_function"]}
{"id": "C17", "title": "Equality and check() of symmetries", "statement": "If two symmetries compare equal and the left one lists no operation twice, they have the same set of operations; symmetries with the same flags and the same duplicate free list of operations compare equal. check() returns True for every symmetry whose list is duplicate free and closed under products, and if the list is duplicate free check()=True implies closure. (With duplicates both implications fail: counterexample.)", "quantifier": "every pair of symmetries", "why_tests_cant": "Equality is decided by a one-sided nearest point sum, soundness needs a counting argument.", "anchors": ["src/tight_binding_redweasel/symmetry.py: Symmetry.__eq__, check", "src/tight_binding_redweasel/linalg.py: pointcloud_distance"]}
{"id": "C18", "title": "pointcloud_distance is zero exactly on containment", "statement": "pointcloud_distance(A,B) is non-negative, zero exactly when each point of A occurs in B (not a matching: multiplicities are ignored, the function is not symmetric), and for duplicate free clouds of the same size zero exactly when they are equal as sets.", "quantifier": "all finite point clouds", "why_tests_cant": "Universal statement over clouds.", "anchors": ["src/tight_binding_redweasel/linalg.py: pointcloud_distance"]}
{"id": "C19", "title": "Coset decomposition by division of symmetries", "statement": "sym / sub for a subgroup sub without inversion flag returns one representative per left coset: each operation of sym is (representative)*(element of sub) for exactly one representative. If sub carries the inversion flag the division always raises.", "quantifier": "every group and subgroup", "why_tests_cant": "Coset algebra for arbitrary groups.", "anchors": ["src/tight_binding_redweasel/symmetry.py: Symmetry.__truediv__"]}
{"id": "C20", "title": "Tight-binding Hamiltonian is hermitian for every k", "statement": "HermitianFourierSeries.f(k) is a hermitian matrix for every k whenever the coefficient at r=0 is hermitian, and conversely f(k) hermitian for one k implies the r=0 coefficient is hermitian.", "quantifier": "every neighbour list starting with 0, all complex coefficient matrices, all real k", "why_tests_cant": "Continuum of k and coefficients.", "anchors": ["src/tight_binding_redweasel/tight_binding_asym.py: HermitianFourierSeries.f"]}
{"id": "C21", "title": "Tight-binding Hamiltonian is periodic", "statement": "For integer neighbours f(k+g)=f(k) for every integer vector g, and df, ddf are periodic as well.", "quantifier": "all k, all integer g, all coefficient arrays", "why_tests_cant": "Continuum of k.", "anchors": ["src/tight_binding_redweasel/tight_binding_asym.py: HermitianFourierSeries.f, df, ddf"]}
{"id": "C22", "title": "df is the derivative of f and ddf the derivative of df", "statement": "For all k, each component i of df(k) is the derivative of t -> f(k+t e_i) at 0, and ddf(k)[i,j] is the derivative of t -> df(k+t e_j)[i] at 0; ddf is symmetric in i,j and df, ddf are hermitian.", "quantifier": "all k, directions, neighbours and coefficient matrices", "why_tests_cant": "Finite difference tests only approximate at samples.", "anchors": ["src/tight_binding_redweasel/tight_binding_asym.py: HermitianFourierSeries.df, ddf, df_i, ddf_i"]}
{"id": "C23", "title": "unit_matrix is the identity for every k", "statement": "unit_matrix(neighbors, n).f(k) = 1 for each k and its derivatives vanish.", "quantifier": "all neighbour lists starting with 0, all n, all k", "why_tests_cant": "Continuum of k.", "anchors": ["src/tight_binding_redweasel/tight_binding_asym.py: HermitianFourierSeries.unit_matrix"]}
{"id": "C24", "title": "Adding neighbours does not change the model; invalid additions change nothing", "statement": "add_neighbors with positions which are not yet listed keeps f(k) for every k; with one position already listed it leaves the series untouched; with several positions of which one is listed it raises ValueError and leaves the series untouched; the first neighbour stays 0.", "quantifier": "all series, all added lists, all k", "why_tests_cant": "Universal over k and over sequences of calls.", "anchors": ["src/tight_binding_redweasel/tight_binding_asym.py: HermitianFourierSeries.add_neighbors"]}
{"id": "C25", "title": "limit_neighbors / cleanup_neighbors / limit_neighbor_count drop exactly what they should", "statement": "limit_neighbors(L) keeps exactly the neighbours with length <= L (zero included, order kept), cleanup_neighbors(m) keeps exactly the first neighbour and those with coefficient norm >= m, limit_neighbor_count(n) with n>=1 keeps min(n, count) neighbours, none of which is longer than a dropped one, and keeps 0 in first place; each returns the number of dropped neighbours, dropped terms with zero coefficient do not change f(k), and the structural invariant (first neighbour 0, equally many coefficients) is preserved by every sequence of calls.", "quantifier": "all series, thresholds, and all sequences of operations", "why_tests_cant": "Invariant over all histories.", "anchors": ["src/tight_binding_redweasel/tight_binding_asym.py: HermitianFourierSeries.limit_neighbors, limit_neighbor_count, cleanup_neighbors"]}
{"id": "C26", "title": "Sum of models is the direct sum for every k", "statement": "(A+B).f(k) is block diagonal with blocks A.f(k), B.f(k); it fails with an error when the neighbour lists differ; hence the spectrum of the sum is the union of the spectra with multiplicity (characteristic polynomial is the product).", "quantifier": "all pairs of series with the same neighbours, all k", "why_tests_cant": "Universal over k.", "anchors": ["src/tight_binding_redweasel/tight_binding_asym.py: HermitianFourierSeries.__add__, direct_sum", "src/tight_binding_redweasel/linalg.py: _direct_sum"]}
{"id": "C27", "title": "Scaling and energy shift of a model act on every band", "statement": "(m*c) has eigenvalues c*e and, for overlap S without k dependence, (m+c) has eigenvalues e+c at every k with unchanged eigenvectors. With k-dependent overlap the shift is not rigid (counterexample).", "quantifier": "all models, all c, all k", "why_tests_cant": "Universal over k and models.", "anchors": ["src/tight_binding_redweasel/tight_binding_asym.py: AsymTightBindingModel.__add__, __mul__"]}
{"id": "C28", "title": "Linear transformation of the neighbours equals transformation of k", "statement": "After transform(A) the Hamiltonian and overlap at k equal the former ones at A^T k; transform(A) followed by transform(A^-1) restores the model.", "quantifier": "all A, all k, all models", "why_tests_cant": "Universal over A and k.", "anchors": ["src/tight_binding_redweasel/tight_binding_asym.py: AsymTightBindingModel.transform"]}
{"id": "C29", "title": "permute and basis changes keep the bands", "statement": "permute(order) with a permutation replaces H(k) and S(k) by the matrices in the permuted basis, so the generalised eigenvalues are unchanged at every k. normalize() replaces H(k), S(k) by L^+ H(k) L, L^+ S(k) L with one invertible L for every k, so generalised eigenvalues are unchanged.", "quantifier": "all permutations, all k, all models", "why_tests_cant": "Universal over k and models.", "anchors": ["src/tight_binding_redweasel/tight_binding_asym.py: AsymTightBindingModel.permute, normalize"]}
{"id": "C30", "title": "Different parametrisations of BandStructureModel give the same Hamiltonian", "statement": "After set_params_complex(H) the Hamiltonian f(k) is H_0 + sum_j sum_{s in S}(e^{2 pi i k.(s r_j)} H_j + h.c.) for each of the four (cos_reduced, exp) options, with hermitian parts taken where the option cannot store more (H_0 for exp=False; all matrices for exp=False with inversion). Without symmetry all four options therefore give the same Hamiltonian for hermitian H_0 and params_complex() returns H. params_complex() always returns the matrices that f uses, and setting them again changes nothing. Defect: with cos_reduced and |S|>1 the Hamiltonian is too small by (|S|-1) sum_j (H_j+H_j^+). A wrong number of matrices, or a model with custom coefficient functions, raises ValueError and leaves the model unchanged. init_tight_binding with N>0 neighbours makes a model with N zero matrices (exp or inversion) or 2N-1 (else); without neighbours AssertionError or ValueError.", "quantifier": "all symmetry lists, neighbour lists, coefficient matrices, k, and all options", "why_tests_cant": "Four code paths must agree for a continuum of k.", "anchors": ["src/tight_binding_redweasel/bandstructure.py: BandStructureModel.params_complex, set_params_complex, f, _get_tight_binding_coeff_funcs"]}
{"id": "C31", "title": "JSON save/load round trip", "statement": "load(save(neighbors, params)) returns the same neighbours and coefficients in an order sorted by length (a permutation of what was saved), with real/imaginary parts of magnitude below 1e-14 replaced by 0. Without such tiny parts the coefficients come back exactly (so a second round trip changes nothing), and a series whose only zero neighbour is the first has the same f, df and ddf at every k after the round trip. Defect: save does not compare the numbers of neighbours and matrices; with half as many matrices as neighbours the file loads silently as a real-valued model, other mismatches raise ValueError or AssertionError in load. A file without neighbours or with band count 0 is rejected with ValueError.", "quantifier": "all neighbour lists, all coefficient arrays", "why_tests_cant": "Round trip must hold for every model.", "anchors": ["src/tight_binding_redweasel/json_tb_format.py: load, save"]}
{"id": "C32", "title": "Wannier90 tb.dat reader keeps exactly one of each +-R pair with the last written entries", "statement": "load_tb returns a result exactly for well-formed files and raises ValueError, IndexError or AssertionError for all others (ValueError for the first line of the body with a number of tokens other than 0, 3, 4, 8). The returned neighbours are pairwise distinct, sorted by length, contain exactly one of each pair +-R of the file (the sign that occurs first), and the coefficient (i,j) of a kept R is the last one the file gives for that R, or 0; the same for the position matrix. Degeneracies and lattice vectors are those of the file.", "quantifier": "all token streams", "why_tests_cant": "Parser state machine over all files.", "anchors": ["src/tight_binding_redweasel/wannier90_tb_format.py: load_tb"]}
{"id": "C33", "title": "Wannier90 hr.dat reader", "statement": "load_hr runs forever exactly when the band and point counts are readable and the rest of the file has fewer tokens than the announced number of degeneracies (defect); otherwise it stops and returns exactly for well-formed files the content of the tb.dat obtained by splitting each 7-token line in two, sorted by length. The values of the degeneracies have no influence on the result (defect: the matrices are not divided by them).", "quantifier": "all files", "why_tests_cant": "Non-termination cannot be shown by a finite test.", "anchors": ["src/tight_binding_redweasel/wannier90_tb_format.py: load_hr"]}
{"id": "C34", "title": "Loss functions", "statement": "model_loss equals the first component of model_error; it is non-negative, zero exactly when the compared bands agree wherever the weight is nonzero, invariant under permutation of the k-points, and the square of the loss scales with the square of the weights.", "quantifier": "all band arrays, weights and offsets", "why_tests_cant": "Universal over arrays.", "anchors": ["src/tight_binding_redweasel/loss.py: model_error, model_loss"]}
{"id": "C35", "title": "Windowed loss searches the band offsets", "statement": "model_windowed_loss (without skipped bands) is the minimum over the offsets 0..D-1 with D the difference of band counts; for the offset D, which is also admissible, it is not tried, and for equal band counts it returns infinity even for identical bands (defect).", "quantifier": "all band arrays", "why_tests_cant": "Off by one at the boundary.", "anchors": ["src/tight_binding_redweasel/loss.py: model_windowed_loss"]}
{"id": "C36", "title": "Optimisation logger history invariant", "statement": "After any sequence of add_message / add_data / abort calls, iterations and loss have the same length which is the number of data entries in the stream in the same order, last_loss is the loss of the last add_data, iteration_count is the last recorded iteration or -1, and a second abort raises ValueError and changes nothing.", "quantifier": "all call sequences", "why_tests_cant": "Histories of unbounded length.", "anchors": ["src/tight_binding_redweasel/logger.py: OptimisationLogger"]}
{"id": "C37", "title": "KPath bookkeeping invariant", "statement": "After any sequence of successful to() calls the number of names equals the number of recorded indices, indices increase strictly, the point at each recorded index is the requested waypoint, the last point is the last waypoint, and to(.., N) adds exactly N points equally spaced on the straight line.", "quantifier": "all sequences of to() calls", "why_tests_cant": "Invariant over all histories.", "anchors": ["src/tight_binding_redweasel/kpaths.py: KPath.__init__, KPath.to"]}
{"id": "C38", "title": "KPath arc length coordinate", "statement": "x() starts at 0, is non-decreasing, has one entry per point, and sym_x() are the x values at the waypoints; along one straight segment x grows linearly.", "quantifier": "all paths", "why_tests_cant": "All paths.", "anchors": ["src/tight_binding_redweasel/kpaths.py: KPath.x, KPath.sym_x"]}
{"id": "C39", "title": "Thermoelectric relations between transport coefficients", "statement": "With j = L0 E - L1 grad T/T and q = L1 E - L2 grad T/T, the returned Seebeck tensor gives E = S grad T in open circuit (j=0), the returned thermal conductivity gives q = -kappa grad T in open circuit, the Peltier tensor gives q = P j for grad T=0, and for symmetric L0, L1 P = T S^T (Kelvin relation). A singular L0 raises LinAlgError, a missing coefficient IndexError.", "quantifier": "all invertible L0, all L1, L2, all T>0, all vectors", "why_tests_cant": "Algebraic law over all matrices.", "anchors": ["src/tight_binding_redweasel/bulk_properties.py: conductivity, peltier, seebeck, electronic_thermal_conductivity"]}
{"id": "C40", "title": "Transport coefficients are symmetric positive semidefinite", "statement": "transport_coefficients returns for each order a and temperature the matrix L with x.L y = spin*q/V * sum w (e-mu)^a tau (x.v)(y.v) over all samples. Every L is symmetric; for non-negative weights and scattering times even orders are positive semidefinite for a right-handed lattice and negative semidefinite for a left-handed one, and the thermal conductivity computed from them is positive semidefinite. drude_factor is L0 without scattering time. Rotating the lattice rotates the coefficients. Singular lattices raise LinAlgError, an int scattering time TypeError.", "quantifier": "all band gradients, all weights, all lattices, orders, temperatures", "why_tests_cant": "Universal over data.", "anchors": ["src/tight_binding_redweasel/bulk_properties.py: KIntegral.transport_coefficients"]}
{"id": "C41", "title": "fermi_surface selects exactly the bands crossing the Fermi energy", "statement": "With at least one sample fermi_surface returns increasing band indices; a band is returned exactly if it has a sample strictly below and a sample strictly above the Fermi energy, together with its energies relative to the Fermi energy in sample order. Without samples it raises IndexError.", "quantifier": "all band arrays, all energies", "why_tests_cant": "Universal over data.", "anchors": ["src/tight_binding_redweasel/fermi_surface.py: fermi_surface"]}
{"id": "C42", "title": "Lattice constructors have the advertised geometry", "statement": "sc, hexagonal, triclinic, monoclinic, orthorhombic, tetragonal and rhombohedral give right-handed cells with exactly the requested lengths and angles (hence the standard volume formula); triclinic accepts exactly positive lengths with angles that satisfy the triangle inequalities and sum to less than 2 pi, everything else raises AssertionError. fcc, bcc and the centred orthorhombic, tetragonal and monoclinic lattices generate exactly the points of the conventional lattice plus the centring points and have 1/4 resp. 1/2 of its volume.", "quantifier": "all admissible real lattice parameters", "why_tests_cant": "Continuum of parameters.", "anchors": ["src/tight_binding_redweasel/qespresso_interface.py: QECrystal lattice constructors"]}
{"id": "C43", "title": "scale_to_density reaches the requested density", "statement": "If the present and the requested density have the same sign, scale_to_density(rho) multiplies the lattice by one positive number, mass_density() equals rho afterwards, and scaling again changes nothing. A left-handed lattice has a negative density and becomes NaN without an exception.", "quantifier": "all lattices and positive densities", "why_tests_cant": "Continuum.", "anchors": ["src/tight_binding_redweasel/qespresso_interface.py: scale_to_density, mass_density"]}
{"id": "C44", "title": "Cube cut volume is a distribution function", "statement": "cube_cut_volume(a, n) with n = cube_precomp(grad) lies in [0,1], is 0 / 1 when the plane misses the cube, is non-decreasing in the plane offset, is 1/2 for offset 0, satisfies V(-a)=1-V(a) and depends on |n_i| only; it equals the true volume fraction (iterated integral of the step function) of the unit cube below the plane whose normal has the clamped components max(|n_i|, EPSILON).", "quantifier": "all gradients, all offsets", "why_tests_cant": "Continuum.", "anchors": ["src/tight_binding_redweasel/smearing.py: cube_precomp, cube_cut_volume"]}
{"id": "C45", "title": "Cube cut density is the derivative of the cube cut volume", "statement": "cube_cut_dvolume is non-negative, zero when the plane misses the cube, and is the derivative of cube_cut_volume in the offset.", "quantifier": "all gradients with nonzero components, all offsets", "why_tests_cant": "Continuum.", "anchors": ["src/tight_binding_redweasel/smearing.py: cube_cut_dvolume, cube_cut_volume_dvolume"]}
{"id": "C46", "title": "Sphere and tetrahedron smearing kernels are distribution functions", "statement": "The sphere kernel volume is the true volume fraction of the ball below the plane, lies in [0,1], is monotone, antisymmetric around 1/2 and its density is its derivative; the tetrahedron kernel equals the true volume fraction of the tetrahedron below the plane for pairwise different corner values, lies in [0,1], is monotone and its density is its derivative; a cube cell cut into tetrahedra inherits this.", "quantifier": "all gradients / corner energies, all offsets", "why_tests_cant": "Continuum.", "anchors": ["src/tight_binding_redweasel/smearing.py: unit_sphere_cut, unit_tetra_cut_volume, unit_tetra_cut_dvolume"]}
{"id": "C47", "title": "DensityOfStates counts states consistently", "statement": "With cubes or spheres smearing, states_below(E) is between 0 and the number of bands, 0 below the lowest band energy, equal to the number of bands above the highest and non-decreasing in E; density(E) is non-negative and is the derivative of states_below away from the band ends; states_density returns the pair of both; cut_band_indices lists exactly the bands with min < E < max, in order.", "quantifier": "all grids of band energies and all energies", "why_tests_cant": "Continuum.", "anchors": ["src/tight_binding_redweasel/density_of_states.py: DensityOfStates.states_below"]}
{"id": "C48", "title": "fermi_energy returns the mid-gap energy, a band edge or a Newton root", "statement": "fermi_energy(electrons) raises AssertionError exactly for electrons outside [0, bands]; for an integer number of electrons with a gap it returns the middle of the gap, where states_below equals electrons; for 0 and for all bands full it returns the lowest / highest band edge, where states_below equals electrons; otherwise a returned energy is E' - d with d = (states_below(E') - electrons) / density(E') and |d| <= tol, so that |states_below(E') - electrons| <= tol * density(E'); if no iterate meets this within maxsteps a ValueError is raised.", "quantifier": "all band ranges and smearings, all electron numbers, tolerances and step counts", "why_tests_cant": "Loop over a data dependent number of Newton steps; continuum of inputs.", "anchors": ["src/tight_binding_redweasel/density_of_states.py: DensityOfStates.fermi_energy"]}
{"id": "C49", "title": "Conjugate gradient solver", "statement": "conjugate_gradient_solve returns after at most max_i+2 applications of A; the maintained residual equals A x - b in each iteration; when it stops because the residual vanished the returned x solves A x = b; the argument x0 is overwritten by the result.", "quantifier": "all symmetric positive definite linear A, all b, x0, max_i", "why_tests_cant": "Loop invariant for all dimensions and iteration counts.", "anchors": ["src/tight_binding_redweasel/linalg.py: conjugate_gradient_solve"]}
{"id": "C50", "title": "direct_sum and kron", "statement": "direct_sum of matrices is block diagonal, associative, multiplicative and compatible with adjoint; kron of several factors is associative, multiplicative.", "quantifier": "all lists of matrices", "why_tests_cant": "Universal.", "anchors": ["src/tight_binding_redweasel/linalg.py: _direct_sum, direct_sum, kron"]}
{"id": "C51", "title": "lattice_in_sphere returns exactly the lattice points inside the sphere", "statement": "lattice_in_sphere(A, d) returns each lattice point A n (n integer) with |A n| < d exactly once and nothing else.", "quantifier": "all invertible A, all d", "why_tests_cant": "Completeness of a bounding box enumeration for all lattices.", "anchors": ["src/tight_binding_redweasel/linalg.py: lattice_in_sphere"]}
{"id": "C52", "title": "bands_grad and bands_grad_hess return the derivatives of the sorted bands", "statement": "Where the sorted eigenvalue number i of a differentiable hermitian pair (H, S) is not degenerate, it is differentiable and geigh_grad returns its derivative v^+ (dH - e dS) v; hence bands_grad returns the gradient of every non-degenerate band of a tight-binding model, and bands_grad_hess of a model with overlap 1 returns gradient and hessian. No differentiability of the eigenvectors is assumed. With an overlap that depends on k bands_grad_hess is wrong (dS is ignored).", "quantifier": "all differentiable hermitian pairs; all models, k points, directions and non-degenerate bands; every result of the eigenvalue routine that meets its contract", "why_tests_cant": "Derivatives are limits; a finite difference test checks one step width at one point.", "anchors": ["src/tight_binding_redweasel/linalg.py: eigh_grad, geigh_grad, eigh_grad_hess", "src/tight_binding_redweasel/tight_binding_asym.py: AsymTightBindingModel.bands_grad, bands_grad_hess"]}
{"id": "C53", "title": "`other in sym` only reports subgroups", "statement": "`other in sym` is True only if every operation of other (including the point reflected ones) is an operation of sym. For groups stored without inversion flag it is True exactly in that case. With the inversion flag the test is incomplete: the mirror group {1, -s} is a subgroup of {1,s} with inversion flag but is reported as not contained.", "quantifier": "all pairs of symmetry objects", "why_tests_cant": "Quantifies over all pairs of finite matrix groups and both storage forms.", "anchors": ["src/tight_binding_redweasel/symmetry.py: Symmetry.__contains__"]}
{"id": "C54", "title": "subgroup(f) is the subgroup on which a class function has its value at the identity", "statement": "Whenever subgroup(f) returns, its operations form a group contained in the original one, the stored matrices s all have f(s)=f(1), each stored matrix of the original with f(s)=f(1) is contained, and without inversion flag its operations are exactly those with f(s)=f(1).", "quantifier": "all symmetry objects, all functions f on matrices", "why_tests_cant": "The predicate is an arbitrary function.", "anchors": ["src/tight_binding_redweasel/symmetry.py: Symmetry.subgroup"]}
{"id": "C56", "title": "Windowed loss with skipped bands is the best assignment", "statement": "model_windowed_loss(allow_skipped_bands=True) is the root of the mean over k points of the cost of the cheapest assignment between reference energies in the window and model bands; it is zero exactly if at every k point one of the two lists contains the other with multiplicity.", "quantifier": "all band arrays and windows, every assignment routine meeting its contract", "why_tests_cant": "Optimality over all assignments for all inputs.", "anchors": ["src/tight_binding_redweasel/loss.py: model_windowed_loss"]}
{"id": "C57", "title": "Error histogram covers the energy range", "statement": "model_error_hist (no skipped bands, different band counts, N >= 2) returns N equally spaced bin centers over the overlap of the energy ranges; every compared error at a reference energy in that range is bounded by the value of a bin near that energy, and every nonzero value is one of the errors in its bin; for equal band counts the call raises TypeError (defect).", "quantifier": "all band arrays, all N", "why_tests_cant": "Coverage of a continuum of energies.", "anchors": ["src/tight_binding_redweasel/loss.py: model_error_hist"]}
{"id": "C58", "title": "Cell fit from eight corners", "statement": "The centre value and gradient that CubesSmearing / SphereSmearing compute from the eight corner values of a cell reproduce every affine function exactly, and are the least squares solution for all corner values: no other affine function has a smaller sum of squared corner errors; the corners of a cell of the wrapped grid are its own value and the values of the next grid points in positive directions, so a function that is linear in a cell is recovered exactly from the grid.", "quantifier": "all eight corner values, all affine competitors", "why_tests_cant": "Minimality over a continuum.", "anchors": ["src/tight_binding_redweasel/smearing.py: CubesSmearing.__init__, SphereSmearing.__init__"]}
{"id": "C59", "title": "Cut area and sample point of a cell", "statement": "cube_cut_area_com returns the gradient norm times the cut density as area, and when this area is not zero (and no gradient component is zero) the returned sample point lies on the cutting plane.", "quantifier": "all gradients, all offsets", "why_tests_cant": "Continuum of cut planes with case distinctions.", "anchors": ["src/tight_binding_redweasel/smearing.py: cube_cut_area_com"]}
{"id": "C60", "title": "Richardson extrapolation removes the leading error terms", "statement": "extrapolate_poly applied to n+1 results for halved step sizes returns the limit exactly when the errors are a combination of the n powers p, 2p, ..., np of the step size; applied to two cell volumes in [0,1] (as ExtraCubesSmearing does) the result lies in [-1/3, 4/3] and both ends occur, so it is not a distribution function.", "quantifier": "all n, p, step sizes, coefficients", "why_tests_cant": "Unbounded number of levels.", "anchors": ["src/tight_binding_redweasel/smearing.py: extrapolate_poly, ExtraCubesSmearing"]}
{"id": "C61", "title": "bandgap and energy_range", "statement": "bandgap(electrons) raises AssertionError exactly if electrons is not strictly between 0 and the number of bands; it is 0 for non-integer electrons, and for an integer it is the distance between the last filled and first empty band or 0 if they overlap. For ordered bands a positive gap is an interval of this width centred at fermi_energy(electrons) in which no band is cut, states_below equals electrons and density is 0. energy_range is the smallest range that contains all bands and raises IndexError without bands.", "quantifier": "all band ranges, electron numbers", "why_tests_cant": "Any number of bands, real-valued electron numbers and energies.", "anchors": ["src/tight_binding_redweasel/density_of_states.py: DensityOfStates.bandgap, DensityOfStates.energy_range"]}
{"id": "C62", "title": "energy at zero temperature", "statement": "energy(mu, T=0) integrates state counts that are piecewise cubic exactly (the extrapolated trapezoidal rule is Simpson's rule). For bands that are partly filled at mu the result is the energy of the filled states times spin_factor; every band that ends below mu adds an error mu - max_e (the code uses mu*N - integral of N up to max_e although N stays 1 up to mu), e.g. 5/2 instead of 1/2 for a constant density on [0,1] and mu=3.", "quantifier": "all bands with cubic state counts, all mu, all N >= 2", "why_tests_cant": "Continuum; tests only use mu inside of the bands.", "anchors": ["src/tight_binding_redweasel/density_of_states.py: DensityOfStates.energy"]}
{"id": "C63", "title": "convolve_df is the exact thermal average of a piecewise linear curve", "statement": "convolve_df(x, energies, states, beta) is the integral of the piecewise linear curve through the samples times the negative derivative of the Fermi function centred at x: over the sampled range without extrapolation, over all energies with constant continuation for 'flat'; with an extrapolation point (e, n) the part n * integral above e is added. With 'flat' the result stays within the bounds of the curve and is non-decreasing in x for non-decreasing curves.", "quantifier": "all x, beta > 0, all sample lists with increasing energies", "why_tests_cant": "Integral over the real line; unbounded sample lists.", "anchors": ["src/tight_binding_redweasel/density_of_states.py: convolve_df"]}
{"id": "C64", "title": "convolve_ddf is the derivative of convolve_df only without extrapolation", "statement": "Without extrapolation convolve_ddf is the derivative of convolve_df with respect to x. With 'flat' or an extrapolation point the right part has the wrong sign: the true derivative is the returned value minus 2*df(e - x)*n for the last sample or extrapolation point (e, n). For the constant curve 1 convolve_df is constant but convolve_ddf is negative.", "quantifier": "all x, beta != 0 and sample lists", "why_tests_cant": "Derivative identity over all x and sample lists.", "anchors": ["src/tight_binding_redweasel/density_of_states.py: convolve_ddf"]}
{"id": "C65", "title": "secant never divides by zero for injective functions", "statement": "For an injective f and a != b, secant(y, f, a, b) returns a point of the secant sequence: either f(x) = y, or |f(x) - y| < tol and no earlier point met this, or the point after max_i steps (then nothing is guaranteed). If f(a) = f(b) ZeroDivisionError is raised. For linear functions the result is exact for all tolerances and step counts.", "quantifier": "all injective functions, targets, start values, tolerances, step counts", "why_tests_cant": "Quantifies over functions and unbounded iteration.", "anchors": ["src/tight_binding_redweasel/density_of_states.py: secant"]}
{"id": "C66", "title": "int_poly integrates quadratics against the Fermi derivative", "statement": "int_poly(x0, x1, a, b, c) equals the integral from x0 to x1 of (a t^2 + b t + c) e^t/(1+e^t)^2, for all signs of the limits.", "quantifier": "all real limits and coefficients", "why_tests_cant": "Continuum; the formula uses absolute values, signs and the dilogarithm and must match at 0.", "anchors": ["src/tight_binding_redweasel/density_of_states.py: int_poly, _int_df, _int_xdf, _int_xxdf"]}
{"id": "C67", "title": "the quadratic used by heat_capacity", "statement": "On a segment with linear density rho, the quadratic in beta*(e-mu) used by heat_capacity equals rho(e)*e*(e-mu+seebeck) minus slope*(e-em)^3 with the midpoint em; the deviation on the segment is at most |y1-y0|*(e1-e0)^2/8.", "quantifier": "all segments, densities, mu, seebeck, beta != 0", "why_tests_cant": "Polynomial identity in nine real variables.", "anchors": ["src/tight_binding_redweasel/density_of_states.py: DensityOfStates.heat_capacity"]}
{"id": "C68", "title": "the integration weights reproduce the Sommerfeld expansion", "statement": "For pairwise different points x the weights computed for chemical potential mu and inverse temperature beta satisfy sum_i w_i p(x_i) = sum_n beta^-n b_n p^(n)(mu) for every polynomial p of degree less than the number of points (so they sum to b_0 = 1); equal points raise LinAlgError; at numerically zero temperature the weight is 1 on one closest point, which must be within 1e-10 (else AssertionError). The final selection keeps points strictly inside the energy range and drops, inside it, only points whose weight is at most rtol*N times the largest weight at every temperature.", "quantifier": "all points, chemical potentials, temperatures, all polynomials below the degree bound", "why_tests_cant": "Exactness over an infinite family of integrands.", "anchors": ["src/tight_binding_redweasel/bulk_properties.py: _integration_weights"]}
{"id": "C69", "title": "outcome of constructing a KIntegral", "statement": "Negative temperatures and even or negative N raise AssertionError. An insulator never constructs: NotImplementedError with a positive temperature, AttributeError with all temperatures zero. A metal at zero temperature gets one surface with one weight row, however many (zero) temperatures were given; at positive temperatures N=1 raises ValueError and odd N>=3 (or the default) succeeds with one weight row per temperature whenever the points are different.", "quantifier": "all temperatures, N, densities of states data", "why_tests_cant": "Case analysis over all arguments including failing ones.", "anchors": ["src/tight_binding_redweasel/bulk_properties.py: KIntegral.__init__, _integration_points, _integration_weights"]}
{"id": "C70", "title": "FreeElectrons bands and gradients", "statement": "__call__ returns the sorted energies fac*|k-G|^2 (the first n with limit_count=n>0), bands_grad the energy-sorted pairs of energy and gradient, the gradient being the derivative of the energy in every direction; bands_grad_hess ignores limit_count for the hessians, so with a limit it returns more hessians than bands.", "quantifier": "all reciprocal vectors, all k, all limits", "why_tests_cant": "Continuum of points.", "anchors": ["src/tight_binding_redweasel/bulk_properties.py: FreeElectrons"]}
{"id": "C71", "title": "Hall coefficients", "statement": "hall_coefficients is unchanged if sigma2 is multiplied by t and sigma3 by t^2; a constant scattering time has exactly this effect in conductivity_hall_tensor. If all carriers have the same isotropic inverse mass mu, the Hall tensor is q*tau*mu*sum_b inv(sigma)_ib eps_kbj, and q*tau*mu/sigma*eps_ijk for sigma2=sigma*1. With a callable scattering time the function raises ValueError unless every surface has 1 or 3 samples, and with 3 samples it multiplies component y by the time of sample y instead of the sample summed over. The velocity and hessian that the Hall integrand receives fit together in physical units.", "quantifier": "all tensors, all sample sets, all scattering times", "why_tests_cant": "Algebraic laws over all data; broadcasting error depends on sample counts.", "anchors": ["src/tight_binding_redweasel/bulk_properties.py: hall_coefficients, KIntegral.conductivity_hall_tensor"]}
{"id": "C72", "title": "The python file format keeps the bands only without symmetry or for cos_reduced=True, exp=False", "statement": "load(save(format='python')) always builds a cos_reduced=True, exp=False model. Its Hamiltonian equals that of the saved model if the saved model has these options, or if it has no symmetry and a hermitian H_0. For a saved model with cos_reduced=False, exp=False it is shifted by the constant matrix -(|S|-1) sum_j (H_j+H_j^+), so with a symmetry the bands change.", "quantifier": "all symmetries, neighbours, coefficients, options, all k", "why_tests_cant": "Equality of Hamiltonians at every k for every model.", "anchors": ["src/tight_binding_redweasel/bandstructure.py: BandStructureModel.save, load, set_params_complex, params_complex"]}
{"id": "C73", "title": "df and ddf of BandStructureModel are gradient and hessian of f", "statement": "For every model made by init_tight_binding, with any parameters, the derivative of every entry of f(k + t u) with respect to t is sum_a u_a df_a and that of every entry of df_a is sum_b u_b ddf_ab. The same holds for custom coefficient functions whose df_i and ddf_i are gradient and hessian of f_i.", "quantifier": "all models, k, directions u, matrix entries", "why_tests_cant": "Derivatives at a continuum of points; six analytic formulas for the coefficient functions.", "anchors": ["src/tight_binding_redweasel/bandstructure.py: BandStructureModel.f, df, ddf, _get_tight_binding_coeff_funcs"]}
{"id": "C74", "title": "permute, transform, + and * act on the Hamiltonian as expected", "statement": "permute(order) permutes rows and columns of f, df and ddf. model + c shifts f by c times the identity and leaves df and ddf alone; model * c multiplies all three. transform(A) turns f(k) into f(A^T k) if A commutes with the symmetry operations, raises ValueError for custom models; without commutation it is wrong. model + other succeeds exactly if the options and the lengths agree and the neighbours differ by less than 1e-8, and gives the block diagonal Hamiltonian; the second block is evaluated with the symmetry of the first model, so it is wrong if the symmetries differ (they are not compared).", "quantifier": "all models, permutations, numbers, matrices A, all k", "why_tests_cant": "Equality of Hamiltonians at every k for every pair of models.", "anchors": ["src/tight_binding_redweasel/bandstructure.py: BandStructureModel.permute, transform, __add__, __mul__"]}
{"id": "C75", "title": "BandStructureModel.normalize keeps the bands", "statement": "normalize() of a model without symmetrizer whose first matrix is hermitian (and whose other matrices may be replaced by their hermitian parts) conjugates f(k) by one unitary matrix for all k, up to an error of at most 1e-14 |f_1(k)| per entry caused by zeroing tiny entries. Afterwards the first matrix is diagonal with ascending entries and the entries of the second matrix right of the diagonal are real and not negative. With exp=False, with inversion symmetry, or with own coefficient functions, the matrices from the third on are hermitian afterwards. With a symmetrizer only the symmetrizer is applied.", "quantifier": "all models of any size, all k", "why_tests_cant": "A loop over all columns with phases, for all matrices and all k.", "anchors": ["src/tight_binding_redweasel/bandstructure.py: BandStructureModel.normalize"]}
{"id": "C76", "title": "BandStructureModel.supercell never returns", "statement": "Every call of BandStructureModel.supercell raises: if the checks of the arguments pass, the assertion that the bounding box has element type int64 fails, because inv and @ give floating point (or complex) numbers for every element type of the two lattice matrices.", "quantifier": "all models, all lattice matrices of every element type", "why_tests_cant": "All input types and values.", "anchors": ["src/tight_binding_redweasel/bandstructure.py: BandStructureModel.supercell"]}
{"id": "C77", "title": "Named integer groups list exactly the documented operations", "statement": "Symmetry.cubic(True) lists every signed 3x3 permutation matrix exactly once (48 operations), cubic(False) those with determinant 1 (24). perm3, even_perm3, mirror3, square and tetrahedral list exactly the permutation matrices, the rotations among the signed permutations that preserve the (1,1,-1) line, the diagonal sign matrices, the signed 2x2 permutation matrices and the (even) signed permutation rotations; with inversion also their negatives. None is missing, none is listed twice.", "quantifier": "every matrix (membership is characterised for all matrices), both values of the flags", "why_tests_cant": "Tests check the group order or closure; a set with the right size can still contain wrong operations.", "anchors": ["src/tight_binding_redweasel/symmetry.py: Symmetry.cubic, perm3, even_perm3, mirror3, square, tetrahedral"]}
{"id": "C78", "title": "Rotation, mirror and dihedral groups are right for every order and dimension", "statement": "For every n > 0, o2(n) and cyclic(n, inversion) list the rotations by multiples of the n-th part of the circle exactly once and form a group (n or 2n operations). dihedral(n, inversion) returns exactly for n < 100 (ValueError above), and then lists the n rotations, their products with the x-mirror, and with inversion the negatives, each once: 2n or 4n operations. n = 0 raises IndexError. mirror_x and mirror_xy list the identity and the sign change of the first one or two coordinates (plus negatives with inversion) in every dimension that has these coordinates, else IndexError. none and inv list 1 and 1, -1. o1(inversion) lists 1 (and -1 with inversion) on the line.", "quantifier": "every count n, both inversion flags, every dimension", "why_tests_cant": "The count is an unbounded integer; tests try 1, 2, 3, 4, 6.", "anchors": ["src/tight_binding_redweasel/symmetry.py: Symmetry.o2, cyclic, dihedral, mirror_x, mirror_xy, none, inv"]}
{"id": "C79", "title": "UnitaryRepresentation.from_generator builds exactly the generated representation", "statement": "from_generator(symmetry generators, matrix generators) whose first pair is the identity pair and whose operations are different returns exactly if all generators have determinant +-1, the set of products of the pairs is finite with less than 1000 elements and no operation gets two different matrices; else AssertionError or ValueError. The returned pairs are then exactly the products, once each, closed under multiplication, with the identity pair, provided the operations need no reduction by the inversion. Disagreements: a generator listed twice, a missing identity, or an operation -1 in odd dimensions give silently a wrong object (elements missing, or lists of different length).", "quantifier": "all generator lists, dimensions, fields", "why_tests_cant": "Tests build a handful of fixed groups; the claim is about every generator list, including duplicates and missing identity.", "anchors": ["src/tight_binding_redweasel/unitary_representations.py: UnitaryRepresentation.from_generator"]}
{"id": "C80", "title": "match_sym reorders without changing the assignment", "statement": "match_sym(sym) succeeds exactly if sym has the same inversion flag and lists the same operations (any order); then the object has the symmetry sym and the assignment operation -> matrix is unchanged. Otherwise ValueError is raised and the object is unchanged. On an object with fewer matrices than operations a matching sym ends in IndexError after the symmetry was already replaced (a defect).", "quantifier": "all representations with different operations, all symmetries", "why_tests_cant": "All orders of all groups.", "anchors": ["src/tight_binding_redweasel/unitary_representations.py: UnitaryRepresentation.match_sym"]}
{"id": "C81", "title": "check() is equivalent to multiplicativity and parity, not to unitarity", "statement": "check() returns True exactly if all products of listed operations are listed, the matrix of a product is the product of the matrices, and (with inversion) no matrix mixes states of different parity. It does not check unitarity or that the identity is represented by the identity: zero matrices pass.", "quantifier": "all representations with as many matrices as operations", "why_tests_cant": "An equivalence over all matrix lists.", "anchors": ["src/tight_binding_redweasel/unitary_representations.py: UnitaryRepresentation.check"]}
{"id": "C82", "title": "The sum of representations is the direct sum", "statement": "a + b returns exactly if the symmetries match up to order and one of the two has states of one parity only (else ValueError). The result is a representation in the order of a, unitary if both are, whose matrices are the block sums in one common numbering of the two bases that puts all even states first. Disagreement: imaginary parts of complex matrices are dropped, so a complex representation added to itself fails check().", "quantifier": "all pairs of representations of every size", "why_tests_cant": "All block sizes, parities and orders.", "anchors": ["src/tight_binding_redweasel/unitary_representations.py: UnitaryRepresentation.__add__"]}
{"id": "C83", "title": "Multiples of representations", "statement": "a * n (n >= 0) returns the n-fold copy of a: states are pairs (state of a, copy), matrices act on the first component, parity is that of the first component, unitarity is kept. Disagreement: a * b for two representations always raises (TypeError if the symmetries match, else ValueError).", "quantifier": "all representations, all n", "why_tests_cant": "All sizes and counts; the failing product has no test.", "anchors": ["src/tight_binding_redweasel/unitary_representations.py: UnitaryRepresentation.__mul__"]}
{"id": "C84", "title": "permute renumbers the basis or leaves the object unchanged", "statement": "permute(order) with a permutation succeeds exactly if no state is moved to a place of the other parity; then each matrix has entries u[order[i], order[j]] and the object is still a (unitary) representation. Else AssertionError and the object is unchanged.", "quantifier": "all representations, all permutations", "why_tests_cant": "All permutations of all sizes; exception safety.", "anchors": ["src/tight_binding_redweasel/unitary_representations.py: UnitaryRepresentation.permute"]}
{"id": "C85", "title": "symmetrize is the orthogonal projection onto symmetric operators", "statement": "With inversion, symmetrize(neighbors, H) returns exactly if every operation maps neighbours to neighbours or negatives of neighbours (else ValueError). The result R satisfies R(S r) = U R(r) U^+ and R(-S r) = I U R(r) U^+ I for all listed positions; operators that have the symmetry are returned unchanged; and the map is self-adjoint for the scalar product sum tr(A(r)^+ B(r)). Disagreement: without inversion the mirrored neighbour is treated as the neighbour itself, so a hermitian operator that has the symmetry can be changed.", "quantifier": "all groups, unitary representations, neighbour lists and hopping matrices", "why_tests_cant": "Statement about all groups and all matrices; tests symmetrise a few random matrices of one group.", "anchors": ["src/tight_binding_redweasel/unitary_representations.py: UnitaryRepresentation.symmetrize"]}
{"id": "C86", "title": "symmetrizer(neighbors) computes the same projection as symmetrize, where it works", "statement": "With inversion, symmetrizer(neighbors) returns exactly if every operation maps neighbours to neighbours or negatives of neighbours, the zero vector is a neighbour and some image has to be mirrored; otherwise it raises ValueError (not closed) or IndexError. Without inversion (and two or more matrices) it never returns: IndexError if all images of neighbours are neighbours, otherwise the first image that is not a neighbour gives AssertionError if its negative is a neighbour and ValueError if not. The function it returns gives for every list of matrices the same result as symmetrize. Disagreement: symmetrize accepts inputs for which symmetrizer raises IndexError (no zero vector, no mirrored image, or no inversion).", "quantifier": "all groups, unitary representations, neighbour lists and hopping matrices", "why_tests_cant": "Equality of two algorithms for all groups, lists and matrices.", "anchors": ["src/tight_binding_redweasel/unitary_representations.py: UnitaryRepresentation.symmetrizer", "src/tight_binding_redweasel/unitary_representations.py: UnitaryRepresentation.symmetrize"]}
{"id": "C87", "title": "symmetrize2 is the orthogonal projection onto matrices invariant under the stabiliser", "statement": "For every position r the matrix returned by symmetrize2 is unchanged by U M U^+ for all operations with S r = r, and by I U M U^+ I for -S r = r with inversion; matrices with these invariances are returned unchanged; and the map is self-adjoint for tr(A^+ B).", "quantifier": "all groups, unitary representations, positions and matrices", "why_tests_cant": "Statement about all groups and matrices.", "anchors": ["src/tight_binding_redweasel/unitary_representations.py: UnitaryRepresentation.symmetrize2"]}
{"id": "C88", "title": "realize_symmetric_matrices: points are the orbits, matrices follow the representation", "statement": "realize_symmetric_matrices returns the given points followed, for each given point other than 0, by the other points of its orbit (with negatives if the group has inversion), each once. With inverse=True the matrices are the values h(k) of every matrix function with h(S k) = U h(k) U^+ and, with inversion, h(-k) = h(k); by default those of functions with h(S k) = U^+ h(k) U. Disagreements: the comment says the opposite about inverse; the parity of the states is not used for the inverted points.", "quantifier": "all representations, points, matrix functions", "why_tests_cant": "All groups and functions; a test with symmetric matrices of order two cannot distinguish U from U^+.", "anchors": ["src/tight_binding_redweasel/unitary_representations.py: UnitaryRepresentation.realize_symmetric_matrices"]}
{"id": "C89", "title": "check_symmetry decides the symmetry at one point only", "statement": "UnitaryRepresentation.check_symmetry(h) returns True exactly if h(S k0) = U h(k0) U^+ for all operations at k0 = (0, 1/2, 0), and raises ValueError outside of three dimensions. Disagreement: it returns True for functions without the symmetry.", "quantifier": "all unitary representations, all matrix functions", "why_tests_cant": "Characterisation over all functions.", "anchors": ["src/tight_binding_redweasel/unitary_representations.py: UnitaryRepresentation.check_symmetry"]}
{"id": "C90", "title": "The named representations are irreducible unitary representations of the cubic group", "statement": "o3, so3, o3ri, o3r, d3 and one_dim return unitary representations that assign to exactly the 24 rotations of the cube: the matrix itself (o3, so3), the matrix times the sign of the axis permutation (o3ri, o3r), the action on (2z^2-x^2-y^2, x^2-y^2) (d3, for every exact sqrt3 in every field), 1 or the sign (one_dim); inv_split has the documented value; the two and three dimensional ones are irreducible.", "quantifier": "all flags; all fields of characteristic zero with a root of three (d3); all commuting matrices (irreducibility)", "why_tests_cant": "Homomorphism property on all pairs with exact arithmetic and irreducibility against all matrices.", "anchors": ["src/tight_binding_redweasel/unitary_representations.py: UnitaryRepresentation.o3, so3, o3ri, o3r, d3, one_dim"]}
{"id": "C91", "title": "subspaces returns the classes of coupled states or raises AssertionError", "statement": "If the identity is among the matrices, subspaces() returns exactly if the relation 'some matrix has a nonzero entry between i and j' is an equivalence relation, else it raises AssertionError. The returned rows are the indicator rows of the classes, each once in lexicographic order, the counts are the class sizes and add up to the dimension.", "quantifier": "all representations of all dimensions", "why_tests_cant": "All dimensions and sparsity patterns.", "anchors": ["src/tight_binding_redweasel/unitary_representations.py: UnitaryRepresentation.subspaces"]}
{"id": "C92", "title": "symmetrize projects a hermitian operator onto the symmetric operators", "statement": "HamiltonianSymmetry.symmetrize(H, neighbors) raises AssertionError for lists of different length, IndexError for empty lists, and otherwise returns coefficients whose Fourier series is hermitian and covariant: for every operation S, every pair of appended representations and every position x (listed or not) the coefficient at S(x+r_b-r_a)-(r_b-r_a) is U_a H_x U_b^H. With inversion the coefficients have the parity law if the list is closed about the bond centres (always if all orbitals are at one place); a symmetric input is returned unchanged, the method is idempotent, and what it removes from each block is orthogonal to every symmetric operator. For lists that are not closed the inversion symmetry of the result can fail (disproved with a witness).", "quantifier": "all groups, unitary representations, positions, neighbor lists without double entries, coefficient matrices", "why_tests_cant": "The law must hold for every position, also those outside the list that the code treats as zero, for every group and representation.", "anchors": ["src/tight_binding_redweasel/hamiltonian_symmetry.py: HamiltonianSymmetry.symmetrize, HamiltonianSymmetry.append"]}
{"id": "C93", "title": "The precomputed symmetrizer agrees with symmetrize", "statement": "For every non-empty neighbor list without repeated positions and every input, the function returned by HamiltonianSymmetry.symmetrizer(neighbors) has exactly the same outcome as symmetrize(H, neighbors). For a list in which the zero position is repeated the two differ (disproved with a witness).", "quantifier": "all objects, all neighbor lists, all matrices", "why_tests_cant": "The tables merge operations with equal matrices and skip missing neighbors; equality must hold for all groups, representations and lists.", "anchors": ["src/tight_binding_redweasel/hamiltonian_symmetry.py: HamiltonianSymmetry.symmetrizer, HamiltonianSymmetry.symmetrize"]}
{"id": "C94", "title": "The symmetrised operator obeys the transformation law in k-space", "statement": "The Fourier series of the result of symmetrize satisfies H_ab((S^T)^-1 k) = U_a H_ab(k) U_b^H exp(2 pi i k (1-S^-1)(r_b-r_a)) for every operation and wave vector, H(-k) = +-H(k) exp(2 pi i k 2(r_b-r_a)) with the product of the parities (closed lists), and is hermitian for every k. The law written in the documentation, with the phase exp(2 pi i k (1+S)(r_a-r_b)), fails already for the identity (disproved with a witness).", "quantifier": "all objects, neighbor lists, inputs, operations, wave vectors, every exponential function into the coefficient field", "why_tests_cant": "All wave vectors and phases.", "anchors": ["src/tight_binding_redweasel/hamiltonian_symmetry.py: HamiltonianSymmetry.symmetrize, class documentation, HamiltonianSymmetry.apply (documentation)"]}
{"id": "C95", "title": "append and the orbital methods append valid representations with the right transformation", "statement": "append accepts exactly the representations with uniform parity whose symmetry has the same inversion flag and the same operations in any order, reorders their matrices to the order of the object and keeps the object valid; everything else raises ValueError and changes nothing. append_s, append_p and append_d2 append the matrices by which the constant, the coordinates and (2z^2-x^2-y^2, sqrt3(x^2-y^2)) transform; append_d2 raises ValueError for operations other than the 24 rotations of the cube. The test in the append_diamond methods recognises exactly the operations that exchange the two atoms; without inversion append_diamond_s/p/d3 append the representations on the functions of both atoms, append_diamond_d3 also with inversion. Disproved with witnesses: append_d3 appends the matrices of yz, xz, xy (wrong sign for quarter turns); append_diamond_s and append_diamond_p with inversion (both matrices of a rotary reflection have the wrong sign); copy never returns.", "quantifier": "all valid objects, all groups (all groups of signed permutations for the diamond methods), all positions, names and coefficient fields", "why_tests_cant": "All groups and all operations; the functions have to be transformed at every point of space.", "anchors": ["src/tight_binding_redweasel/hamiltonian_symmetry.py: HamiltonianSymmetry.append, append_s, append_p, append_d2, append_d3, append_diamond_s, append_diamond_p, append_diamond_d3, copy"]}
{"id": "C96", "title": "apply and realize_symmetric give the operator at the image point for even orbitals at one place", "statement": "If all orbitals are even, apply(k, H, i) returns U_a H_ab U_b^H exp(2 pi i k (1+S)(r_a-r_b)); if moreover they are at one place, it maps the symmetrised operator at k to the one at (S^T)^-1 k, and realize_symmetric returns for orthogonal operations at every returned point the operator at that point. The returned points are exactly the images of the given points under all operations, from one point each image once. Disproved with witnesses: the identity leaves the operator unchanged (fails with an odd orbital); with inversion the rows of the odd orbitals change sign (the first rows do); the argument inversion has no effect.", "quantifier": "all objects, operators, points, operations", "why_tests_cant": "All points and groups.", "anchors": ["src/tight_binding_redweasel/hamiltonian_symmetry.py: HamiltonianSymmetry.apply, HamiltonianSymmetry.realize_symmetric"]}
{"id": "C97", "title": "get_band_name names the representation of a band", "statement": "For the i-th band of the a-th appended representation get_band_name returns its name, followed by i if the representation has more than one dimension; numbers from dim() on raise IndexError. Negative numbers are not rejected: they are attributed to the first representation.", "quantifier": "all objects and band numbers", "why_tests_cant": "All lists of dimensions.", "anchors": ["src/tight_binding_redweasel/hamiltonian_symmetry.py: HamiltonianSymmetry.get_band_name, HamiltonianSymmetry.dim"]}
{"id": "C55", "title": "supercell folds the bands", "statement": "AsymTightBindingModel.supercell(A, A_new) succeeds exactly if the first neighbour is zero, A is regular, A_new = A L with an integer matrix L of positive determinant and every row of L has a positive entry. If L commutes with A and L times the neighbours covers the superlattice vectors needed, the result has det(L) times as many bands, maps Bloch states to Bloch states with the original Hamiltonian, and its bands at k are exactly the bands of the model at all points k + g with g in the reciprocal superlattice. This holds for all multiples A_new = m A if with every neighbour the lattice vectors between it and zero are neighbours. Otherwise it can fail: bases of the other orientation or with negative rows raise, the overlap matrix is ignored, superlattice vectors are lost and the neighbours are multiplied with L in cartesian coordinates.", "quantifier": "all dimensions, band counts, models, lattices, integer matrices and k-points", "why_tests_cant": "The band folding is an equality of eigenvalue sets for all k and all integer matrices.", "anchors": ["src/tight_binding_redweasel/tight_binding_asym.py: AsymTightBindingModel.supercell"]}
{"id": "C98", "title": "free_electron_model_orthogonal approximates free electrons with a proved error bound", "statement": "free_electron_model_orthogonal(a, b, c, neighbor_count, m) succeeds exactly if no lattice constant and no band count is zero. Before its last step the model is hermitian with m^3 bands; every band energy at k lies within 2m/(pi^2 (neighbor_count+1)) (1/a^2+1/b^2+1/c^2) of |k+G|^2 for a reciprocal lattice vector G with k+G in the m-fold enlarged Brillouin zone, and every such G has a band within this distance. The last step keeps exactly the 3 neighbor_count + 1 terms with the shortest neighbours. The terms are not chosen for each direction: in an anisotropic lattice with m = 2 no neighbour along the long axis may remain. For m = 1 nothing is lost, so that the returned band is the truncated cosine series and has the same error bound in the Brillouin zone.", "quantifier": "all lattice constants, neighbour counts, band counts, k-points and sorting orders of equal lengths", "why_tests_cant": "The bound is a statement about an infinite series, for all k and all truncations.", "anchors": ["src/tight_binding_redweasel/tight_binding_asym.py: free_electron_model_orthogonal"]}
{"id": "C99", "title": "optimize_cg descends, solves the linearised fit and keeps a fitted model", "statement": "In optimize_cg of AsymTightBindingModel and BandStructureModel the step of an iteration strictly reduces the weighted square loss of the linearised fit (each band changed by its first order perturbation) or is zero, for every number of conjugate gradient passes; if the solver reached the solution the step is the minimiser of the linearised loss over all parameter changes. If the fitted bands are simple at the samples, either the derivative of the loss vanishes in all directions and the step is zero, or the loss decreases strictly along the negative step. A call with a valid offset and without preconditioner, or with plane waves that are independent on the samples, succeeds, keeps the neighbours, changes the overlap by a basis only and returns a normalised model; without iterations or with a loss below loss_threshold all bands are kept everywhere. With a symmetrizer that is a projection the result of BandStructureModel.optimize_cg is symmetric, and m + k iterations (stopped by the loss threshold only) are m iterations followed by k iterations of a second call. An offset outside [0, N - N_B] raises AssertionError. With the preconditioner (the default) LinAlgError is raised whenever the plane waves are dependent on the samples, for example if there are fewer samples than neighbours. The mask of keep_zeros is computed before the basis is changed: a fit of the bands -1, 1 to -2, 2 returns the zero Hamiltonian.", "quantifier": "all models, samples, references, weights, offsets, thresholds, iteration counts, and all behaviours of the library routines within their contracts", "why_tests_cant": "The descent property concerns derivatives at all parameters and every truncation of the conjugate gradient solver.", "anchors": ["src/tight_binding_redweasel/tight_binding_asym.py: AsymTightBindingModel.optimize_cg", "src/tight_binding_redweasel/bandstructure.py: BandStructureModel.optimize_cg", "src/tight_binding_redweasel/linalg.py: conjugate_gradient_solve"]}
{"id": "C100", "title": "BandStructureModel.optimize: exact fits, descent, kept values and the failures of its options", "statement": "BandStructureModel.optimize with its defaults, all bands as sorted reference, constant weights and samples that are independent under the coefficient functions succeeds for every number of iterations above zero; either the loss of the normalised model is below loss_threshold and the model is only normalised, or the result has the reference as bands at every sample (up to the entries of at most 1e-14 that normalize drops). Without pseudoinverse, batches, symmetrizer and previous change, at simple bands and for positive weights, the change of the parameters is zero or the square difference weighted with band_weights and with the sample weights over the norm of the coefficients decreases for all small learning rates. train_k0=False keeps the first matrix in the loop, and with cos_reduced it keeps f(0) up to a basis; without cos_reduced f(0) changes. keep_zeros keeps the zeros of the normalised parameters, not those of the model passed in. A result without symmetrizer has a diagonal ascending first matrix, the same coefficient functions and number of matrices. An invalid offset raises AssertionError, batch_div=0 ZeroDivisionError, more batches than samples IndexError.", "quantifier": "all models, samples, references, weights, offsets, thresholds, iteration counts, and all behaviours of the library routines within their contracts", "why_tests_cant": "The exact fit holds for every model and every set of independent samples; descent concerns derivatives at all parameters.", "anchors": ["src/tight_binding_redweasel/bandstructure.py: BandStructureModel.optimize"]}
{"id": "C101", "title": "AsymTightBindingModel.optimize: exact fits, descent, kept fits and the failures of its options", "statement": "AsymTightBindingModel.optimize with its defaults, an overlap that at the samples is the same as at zero, all bands as sorted reference, constant band weights and samples that are independent under the plane waves (or without pseudoinverse and one sample) succeeds for every number of iterations above zero; either the loss was below loss_threshold and only the basis is changed, or the result has the reference as bands at every sample. Without pseudoinverse, batches, keep_zeros and previous change, at simple bands, the parameters are stationary for the loss and the change is zero, or the loss decreases for all small learning rates. Without iterations or with a loss below loss_threshold all bands are kept everywhere. Calls with train_S=False, a valid offset and between one and K batches succeed, keep the neighbours, change the overlap by a basis only and return a normalised hermitian model; an invalid offset raises AssertionError, batch_div=0 ZeroDivisionError, more batches than samples IndexError once an empty batch is reached. train_S=True always raises NameError. keep_zeros=True leaves a model with bands -1, 1 and zero diagonal unchanged for every reference. With batch_div=2 the Hamiltonians of a batch are solved with the overlaps of other samples: a fit whose reference the model can meet ends with bands 2, 4 instead of 1, 2 after any even number of iterations.", "quantifier": "all models, samples, references, weights, offsets, thresholds, iteration counts, and all behaviours of the library routines within their contracts", "why_tests_cant": "The exact fit holds for every model and every set of independent samples; descent concerns derivatives at all parameters; the failures hold for every number of iterations.", "anchors": ["src/tight_binding_redweasel/tight_binding_asym.py: AsymTightBindingModel.optimize"]}
{"id": "C102", "title": "Space groups: space_group, point_group, strict_point_group and the projective flag", "statement": "Symmetry.space_group keeps a list of affine operations (or their duals) unchanged, in order, marked projective, with space_dim = dim; lists of dim x dim matrices go to the constructor unmarked; other sizes raise AssertionError. point_group of affine operations always succeeds, its operations are exactly the linear parts, and they form a group whenever the list is a space group modulo lattice translations. strict_point_group succeeds exactly if the operations without translation are closed under multiplication and fewer than 200 (true for space groups with reduced translations); the result lists exactly their linear parts and is a group; otherwise it raises AssertionError or ValueError, and for a list without translation column it always raises AssertionError. transform(B) in three dimensions gives operations acting on B x as the old ones on x; in any other dimension it raises ValueError. dual gives the unique matrices with (s' k).(s x) = k.x and keeps the flag. Failures: operations that differ by a translation only are counted repeatedly by point_group; for centrosymmetric groups without translation in odd dimensions point_group and strict_point_group have the same operations but compare unequal; transpose and * lose the flag; check() and * raise ValueError for every space group with an operation one of whose powers is a non-zero translation; inversion=True with projective=True doubles the size without adding any operation of space.", "quantifier": "all dimensions, all lists of affine matrices over an ordered field, all lattices", "why_tests_cant": "Covers all space groups in all dimensions; a test sees a few groups, and the failure of check needs an infinite generated group.", "anchors": ["src/tight_binding_redweasel/symmetry.py: Symmetry.space_group", "src/tight_binding_redweasel/symmetry.py: Symmetry.point_group", "src/tight_binding_redweasel/symmetry.py: Symmetry.strict_point_group", "src/tight_binding_redweasel/symmetry.py: Symmetry.remove_translation", "src/tight_binding_redweasel/symmetry.py: Symmetry.ignore_translation", "src/tight_binding_redweasel/symmetry.py: Symmetry.transform", "src/tight_binding_redweasel/symmetry.py: Symmetry.dual"]}
{"id": "C103", "title": "read_bands_crystal returns crystal coordinates and the k-space operations of the listed symmetries", "statement": "read_bands_crystal returns exactly if the reciprocal vectors are independent, there is a k-point, all k-points have the same number of bands, and there is at least one listed symmetry, all of them invertible integer matrices; otherwise it raises ValueError or AssertionError. In particular a file without symmetries, meant to give the identity, raises AssertionError. The returned k-points are the unique coordinates with respect to the reciprocal vectors, energies and the Fermi energy are multiplied by the unit factor, self.A has the lattice vectors as columns. One operation s per listed rotation R, in this order, with (s k).(R x) = k.x; as soon as one symmetry has a translation all of them are 4x4 matrices dual to the affine maps with the translation in the last row, not in the last column. Symmetry.point_group of the result succeeds if the first symmetry is the identity without translation and all determinants are +-1, and has exactly the k-space operations of the listed rotations in both cases.", "quantifier": "all file contents after parsing, all unit factors", "why_tests_cant": "Holds for all lattices, k-points and symmetry lists; tests need Quantum Espresso output files, and none without symmetries exists in the repository.", "anchors": ["src/tight_binding_redweasel/qespresso_interface.py: QECrystal.read_bands_crystal", "src/tight_binding_redweasel/symmetry.py: Symmetry.point_group"]}
{"id": "C104", "title": "The named k-points are the face centres, edge points and vertices of the Brillouin zone they stand for", "statement": "Let the zone of a lattice be the set of points not nearer to another reciprocal lattice point than to the origin. For lattice constant a the entries of kpaths.points, divided by a, are for sc (X, M, R), fcc (X2, K, L, W, U) and bcc (H, H1, N, P) points of the zone which lie on the stated bisector planes and are the nearest to the origin among the points on these planes (face centre, foot on an edge, vertex); likewise the 2D and 1D points. hexagonal_points(1/a, 1/c) gives these points for hexagonal(a, c); with r the distance of neighbouring reciprocal lattice points, as documented, M and L lie outside the zone. tetragonal_bc_points(c), c > 0, c != 1, gives them for tetragonal_body_centered(1, c), with separate tables for c < 1 and c > 1; but it replaces kpaths.points, so that a later tetragonal_bc_points(1) returns the points of the former c, with N outside or strictly inside the cubic zone; in a fresh session X for c = 1 is strictly inside. trigonal_points(alpha) gives them for rhombohedral(1, alpha), 0 < alpha < 120 degrees (axes exchanged for mirror_x=True), with P and P1 the middles of two edges for alpha >= 90 degrees; from 120 degrees on it raises AssertionError.", "quantifier": "all lattice constants, all axis ratios, all angles, all earlier calls", "why_tests_cant": "Membership in the zone is a condition for infinitely many reciprocal lattice vectors and for a continuum of lattice parameters.", "anchors": ["src/tight_binding_redweasel/kpaths.py: points", "src/tight_binding_redweasel/kpaths.py: _hsp", "src/tight_binding_redweasel/kpaths.py: hexagonal_points", "src/tight_binding_redweasel/kpaths.py: tetragonal_bc_points", "src/tight_binding_redweasel/kpaths.py: trigonal_points"]}
{"id": "C105", "title": "TightBindingModel is a real trigonometric form of a hermitian Fourier series", "statement": "TightBindingModel(symmetry, neighbors, params) returns an object exactly for a representation with one matrix U and no inversion, a first neighbour 0 and 2n-1 parameter matrices for n neighbours (or params=None); every other symmetry or inversion flag raises. For each object f(k) = P0 + sum over the other neighbours r of (cos(2 pi k r) - 1) A_r + sin(2 pi k r) B_r with the parameters P0, A.., B.. in this order, and f(0) = P0; df and ddf are its first and second derivatives. For hermitian parameters f, df, ddf are those of HermitianFourierSeries with P0 - sum A and (A - iB)/2, hermitian and periodic for integer neighbours; bands_grad and bands_grad_hess are the derivatives of simple bands. set_from_complex with one matrix per neighbour gives the f, df and ddf of the HermitianFourierSeries of these matrices (hermitian part of the first). It does not check the number of matrices: with more, f raises IndexError afterwards; with fewer, sine matrices are used with cosines. params_complex is never the inverse: ValueError for three or more neighbours, otherwise half the constant and the adjoint coefficient.", "quantifier": "all dimensions, neighbour lists, parameter matrices, k-points, directions and simple bands", "why_tests_cant": "The formulas are for all k, all derivatives and arbitrarily many neighbours; the failures hold for every input of the class.", "anchors": ["src/tight_binding_redweasel/tight_binding.py: TightBindingModel.__init__", "src/tight_binding_redweasel/tight_binding.py: TightBindingModel.f", "src/tight_binding_redweasel/tight_binding.py: TightBindingModel.df", "src/tight_binding_redweasel/tight_binding.py: TightBindingModel.ddf", "src/tight_binding_redweasel/tight_binding.py: TightBindingModel.params_complex", "src/tight_binding_redweasel/tight_binding.py: TightBindingModel.set_from_complex", "src/tight_binding_redweasel/tight_binding.py: TightBindingModel.bands_grad_hess"]}
{"id": "C106", "title": "TightBindingModel.optimize: when it works, what it descends, and what it ignores", "statement": "optimize of a TightBindingModel succeeds exactly if there are samples, 0 <= band_offset <= N - B, k_smpl_weights has one or K entries and no used batch is empty (batch_div not 0, and at most K or at most K iterations); otherwise it raises IndexError, AssertionError, ValueError, ZeroDivisionError, IndexError respectively. The result is again a model with the same neighbours and number of parameters, hermitian if it was hermitian. k_smpl_weights has no effect. A model which already reproduces the reference bands at the samples is not changed. For one sample, all bands, constant weight w and an ascending reference each iteration multiplies the distance of every band to the reference with 1 - theta, theta = learning_rate w / S (learning_rate w (S-1)/S^2 with train_k0=False), S = 1 + 2 sum_r (1 - cos 2 pi k r), for 0 <= theta <= 1. Without batches and at simple bands one iteration either changes nothing for every learning rate or decreases the loss with the weights of the bands and 1/S^2 of the samples for all small learning rates. The printed loss without these weights can increase for every positive learning rate.", "quantifier": "all neighbour lists, hermitian parameters, samples, references, weights, learning rates and iteration counts", "why_tests_cant": "Descent is a statement about all small learning rates and all models with simple bands; the rate is for every number of iterations; that no learning rate decreases the loss is a statement about all of them.", "anchors": ["src/tight_binding_redweasel/tight_binding.py: TightBindingModel.optimize"]}
{"id": "C107", "title": "DensityOfStates.chemical_potential: one result per sorted temperature, and samples that are not renewed", "statement": "chemical_potential(electrons, T) for sorted temperatures and a Fermi energy inside of the energy range returns one value per temperature and raises nothing: the Fermi energy for T <= 0; for T >= max(|e0 - E_F|, |e1 - E_F|)/(8 k_B) the secant root of the thermal average of the states curve interpolated at N equally spaced energies; otherwise the secant root of the thermal count with N samples in the window E_F +- 120 k_B T' intersected with the energy range, where T' is the last temperature that differed by more than 5 percent from the one before. If the samples cover all bands the result is a number at which the interpolated thermal count equals the number of electrons within tol, or the point after the last secant step. The samples contain the Fermi energy and increase strictly. Errors: no temperatures raise ValueError, errors of fermi_energy are passed on. Failures: for temperatures increasing in steps of at most 5 percent the samples are never renewed, so no result depends on states more than 120 k_B T_0 away from the Fermi energy (T_0 the lowest temperature), although the exact count does for every temperature; unsorted temperatures can raise NameError; full or empty bands give values that are not finite.", "quantifier": "all densities of states, electron numbers, temperature lists, N, tolerances and step counts", "why_tests_cant": "The state of the loop (beta and the samples) depends on the whole list of temperatures; that the results ignore distant states is a statement about pairs of densities of states.", "anchors": ["src/tight_binding_redweasel/density_of_states.py: DensityOfStates.chemical_potential", "src/tight_binding_redweasel/density_of_states.py: _samples"]}
{"id": "C108", "title": "DensityOfStates.seebeck and heat_capacity: difference quotients and the integral of rho e (e - mu + T mu') (-f')", "statement": "seebeck(electrons, T, h) asks for the chemical potentials at T - h and T + h of all positive temperatures in one call; the result has one entry per temperature, zero for T <= 0 and (mu(T+h) - mu(T-h))/(2h) otherwise, with not-finite values passed on. Without positive temperatures it raises ValueError (not zeros), for h >= the smallest positive temperature AssertionError. heat_capacity returns 0 for T <= 0; for T > 0 and finite chemical potentials inside of the energy range it is spin_factor/T times the integral of rho(e) e (e - mu + s) (-f'(e - mu)) over the window of 30 k_B T around mu, rho interpolated linearly between N samples and s = T times the difference quotient of mu, up to an error of at most |spin_factor|/T times the sum over the segments of |difference of rho| (length)^2/8.", "quantifier": "all densities of states, temperatures, steps, sample numbers and spin factors", "why_tests_cant": "The error bound and the identity with the integral hold for every density of states and temperature; the dilogarithm is characterised by its series.", "anchors": ["src/tight_binding_redweasel/density_of_states.py: DensityOfStates.seebeck", "src/tight_binding_redweasel/density_of_states.py: DensityOfStates.heat_capacity", "src/tight_binding_redweasel/density_of_states.py: int_poly"]}
{"id": "C109", "title": "DensityOfStates.full_curve and k_resolved_density", "statement": "full_curve(N, 0) returns strictly increasing energies, exactly those of N equally spaced points in each band, with the states below and the density there. full_curve(N, T > 0) adds N energies up to 5 k_B T below and above; its states are the thermal averages of the interpolated curve at T = 0, do not decrease and lie between 0 and the number of bands; its densities are the thermal averages of the interpolated density over the energy range and not negative. Without points every T other than 0 raises IndexError. k_resolved_density raises AssertionError for T < 0, for T = 0 it is the sum of dvolume over the bands. Failure: for T > 0 it is the derivative of the thermal average of the states in the cell minus 2 (-f'(b - mu)) n with the last sample b and the states n below it; a cell whose bands are all filled gets a negative density.", "quantifier": "all densities of states with bands that are distribution functions, all N, temperatures, energies and cells", "why_tests_cant": "Monotonicity and bounds are for every curve; the sign error is hidden unless the upper end of the bands is near the energy.", "anchors": ["src/tight_binding_redweasel/density_of_states.py: DensityOfStates.full_curve", "src/tight_binding_redweasel/density_of_states.py: DensityOfStates.k_resolved_density"]}
{"id": "C110", "title": "DensityOfStates.energy at positive temperature, and its dependence on the energy origin", "statement": "For T > 0 and e0 < mu < e1, energy(mu, T, N, spin_factor) is spin_factor times the sum of: the energy at T = 0; the integral of e rho(e) (f(e - mu) - f0(e - mu)) over the window of 30 k_B T around mu intersected with the energy range, for the states curve interpolated between N samples, one of which is mu; and the error terms (n - S(b)) b f(b) and - S(a) a (1 - f(a)) from the ends a, b of the window, - n (b + 8 k_B T) f(b + 8 k_B T), and (slope - density(mu)) mu^2/2 with the slope of the interpolated states just below mu. Failure: if all energies and mu are moved by c the result contains the term spin_factor c^2/2 (slope - density(mu)), instead of changing by c times the number of electrons. At mu = e0 and mu = e1 the result is not finite.", "quantifier": "all densities of states, chemical potentials inside of the energy range, temperatures, sample numbers, spin factors and shifts", "why_tests_cant": "The decomposition is an identity between integrals for every density of states; the quadratic dependence on the origin is a statement about all shifts.", "anchors": ["src/tight_binding_redweasel/density_of_states.py: DensityOfStates.energy"]}
{"id": "C111", "title": "Symmetry.realize_symmetric_data with average_bad_duplicates=True averages over the sources of every image", "statement": "realize_symmetric_data(k_smpl, data, unit_cell, average_bad_duplicates=True) of a symmetry that is a group returns exactly the images of the given points (folded into the unit cell on request). If the rounded sort keys separate these points, every point is returned once and its row is the mean of the rows of all given points that have it as an image, each counted once, however many operations map it there. If points with a common image have equal rows, rows are copied unchanged. Without folding the averaged data is symmetric: every image of a returned point is returned with the same row. No points or fewer rows than points raise IndexError.", "quantifier": "all groups of matrices, points, rows and sort keys", "why_tests_cant": "The set of sources of an image depends on the whole group and on coincidences between images; the claim is for all of them.", "anchors": ["src/tight_binding_redweasel/symmetry.py: Symmetry.realize_symmetric_data"]}
{"id": "C112", "title": "kpaths.interpolate reproduces its samples, is periodic, and fails outside of the documented range", "statement": "For samples forming a rectangular grid in any order, interpolate(periodic=False) returns a function that reproduces all samples, is defined inside of the range of the samples and raises ValueError outside; axes with too few points for the method raise ValueError. periodic=True returns exactly if every axis has at least two points, spans less than one period and has enough points, otherwise ValueError; the function has period one along every axis, and for samples in [-1/2, 1/2] it is defined everywhere and reproduces the samples. With a symmetry whose images form a grid the function has the row of a sample at each of its images. No samples, different numbers of samples and rows and a wrong grid size raise AssertionError, more than three dimensions ValueError. Failures: for samples outside of [-1/2, 1/2] the periodic function raises ValueError at its own samples although it is documented to work for any k; only the number of samples is compared with the grid, so samples that are no grid are accepted and their rows returned at other points.", "quantifier": "all grids up to three dimensions, orders of samples, rows, symmetries, grid arguments, and interpolators that reproduce their grid values", "why_tests_cant": "Order, shape, wrap-around and rounding keys interact; the statement is for all grids and all evaluation points.", "anchors": ["src/tight_binding_redweasel/kpaths.py: interpolate"]}
{"id": "C113", "title": "kpaths.interpolate_unstructured returns the row of a nearest sample or nan", "statement": "Without symmetry and with as many rows as samples, the returned function gives the row of a nearest sample if one is closer than max_error and nan otherwise; at different samples it gives their rows. With a group as symmetry and equal rows of equivalent samples it gives the row of a sample at all its images. No samples or no rows raise IndexError. Failure: the numbers of samples and rows are not compared; with surplus rows a point far from all samples gets the first surplus row instead of nan.", "quantifier": "all samples, rows, groups, positive radii and points, and any nearest neighbour search", "why_tests_cant": "For every set of samples and every evaluation point; the missing length check only shows for mismatching inputs.", "anchors": ["src/tight_binding_redweasel/kpaths.py: interpolate_unstructured"]}
{"id": "C114", "title": "save and load of AsymTightBindingModel and BandStructureModel: formats, state, round trips and what is lost", "statement": "Without a supported format (argument, or ending of the name) save and load raise ValueError and change nothing; a given format overrides the ending; a file that cannot be opened raises OSError. In every case save changes at most the named file, and when it returns numpy's print options are as before. AsymTightBindingModel: saving as JSON and loading gives the same Hamiltonian at every k and the unit matrix as overlap. BandStructureModel: saving as JSON with any options and loading with any options gives, in three dimensions, the plain Fourier series of the saved coefficients, which is the saved Hamiltonian for models without symmetry; the python format restores model and symmetry with options cos_reduced=True, exp=False. Wannier90 files give the Fourier series of what the reader returns in both classes. AsymTightBindingModel.load of a python file gives the same Hamiltonian without symmetry and always raises with symmetry. Failures: the overlap is not saved, so bands of non-orthogonal models change silently; JSON loses the symmetry of a BandStructureModel silently; a BandStructureModel loaded from JSON in a dimension other than three raises ValueError in f at every k, as load uses the three-dimensional Symmetry.none(); save in the documented format wannier90 always raises; when save raises after the checks, the global print options stay changed, and a series without terms empties the file.", "quantifier": "all models, names, formats, file systems, print options, options of load; all json/repr/eval routines that read what they wrote", "why_tests_cant": "A round trip of one file neither shows the state after failures nor covers all formats, dimensions, symmetries and options.", "anchors": ["src/tight_binding_redweasel/tight_binding_asym.py: AsymTightBindingModel.save", "src/tight_binding_redweasel/tight_binding_asym.py: AsymTightBindingModel.load", "src/tight_binding_redweasel/bandstructure.py: BandStructureModel.save", "src/tight_binding_redweasel/bandstructure.py: BandStructureModel.load"]}
{"id": "C115", "title": "Start models from reference data: diagonal of the bands at k=0, size of the random part, and that k=0 is not exact", "statement": "AsymTightBindingModel.init_from_ref raises IndexError without samples or neighbours, AssertionError if the dimensions differ, the first neighbour is not 0 or no sample is 0. Otherwise it takes the bands of the first sample k=0: up to one unitary change of basis the Hamiltonian is their diagonal matrix plus hermitian terms for the other neighbours with entries of at most 3/1000 of the spread of these bands; H(0) is diagonal, the overlap is one. So at every k band i stays within 6/1000 * spread * (number of other neighbours) * (number of bands) of the reference at k=0. The comment that the start model is correct at k=0 is false: the sum of the bands at k=0 is the sum of the reference plus 1/1000 of the spread times the traces of the random matrices (twice). For one band, or equal bands, the spread is zero and the model is constant. BandStructureModel.init_from_ref and init_tight_binding_from_ref pad the bands at k=0 with copies of the first band (band_offset times) and of the last band (add_bands-band_offset times; none for negative numbers): exactly add_bands more bands if and only if 0<=band_offset<=add_bands, otherwise too many. The first parameter is the diagonal matrix of them, the others are hermitian with entries of at most 3/1000. With cos_reduced=True f(0) is this diagonal matrix and the padded bands are reproduced at k=0; with cos_reduced=False the trace of f(0) is wrong by the number of operations times the traces of the random matrices.", "quantifier": "all neighbour lists, samples, reference bands, offsets, symmetries, random numbers in [0,1) and k", "why_tests_cant": "The statements hold for every outcome of the random numbers and every k; one seeded run says nothing about the others.", "anchors": ["src/tight_binding_redweasel/tight_binding_asym.py: AsymTightBindingModel.init_from_ref", "src/tight_binding_redweasel/bandstructure.py: BandStructureModel.init_from_ref", "src/tight_binding_redweasel/bandstructure.py: BandStructureModel.init_tight_binding_from_ref"]}
{"id": "C116", "title": "autofit_asym: checkpoints, growth of the neighbours, choice of the start model, and the arguments for which it always fails", "statement": "autofit_asym writes only the files asym_{name}_start.json and asym_{name}_{c}.json with start_neighbors_count+1 <= c <= len(neighbors_src), also when it fails; the print options of numpy are unchanged after success. If it returns, every one of these files holds what save writes for a model of that stage: the start model has the positions completed from the first start_neighbors_count+1 source neighbours, each following one has the star of one more source neighbour, and the returned model is the one in the last file; with no source neighbour left, it is the start model and only the start file is written. The start model is the restart with the least last loss (the first of equal ones). The samples are permuted together with their bands, sorted by length; the j-th of ten stages uses the ceil(j*N/10) samples nearest to zero, at least one, and the last stage all. A negative count, or restarts=0, raises AssertionError and writes nothing. If a star with two or more positions contains an already listed position, the call fails. add_bands_below or add_bands_above > 0 with at least two reference bands always raises ValueError before the first file, since np.diag(ref_bands[0]) has the wrong shape; with one reference band the whole first matrix is filled with this value instead of the diagonal. If the start model fits exactly (all errors zero), ValueError is raised by the logger after the start file. Otherwise, without added bands, with one or more samples and restarts, if the called functions work and the stars are apart, the call returns.", "quantifier": "all names, neighbour lists, samples, bands, counts, flags, symmetries (as complete_neighbors), random numbers and outcomes of the fits", "why_tests_cant": "A run takes minutes, is random and covers one data set; which files exist after a failure and which arguments always fail are statements about all runs.", "anchors": ["src/tight_binding_redweasel/tight_binding_asym.py: autofit_asym", "src/tight_binding_redweasel/tight_binding_asym.py: AsymTightBindingModel.save", "src/tight_binding_redweasel/logger.py: OptimisationLogger.add_data"]}
{"id": "C117", "title": "electron_phonon_coupling: formula, symmetry under exchange, sum rule, dependence on the eigenvectors", "statement": "electron_phonon_coupling(k_smpl, k1, k2) returns the bands and velocities of all samples and, for the samples k = k_smpl[k1[x]], k' = k_smpl[k2[y]] and every direction, the matrix g_ij = (v_i(k) - v_j(k')) <u_i(k)|u_j(k')>. Indices from -N to N-1 are accepted, any other raises IndexError. For equal samples all entries are zero. Exchanging the samples gives minus the adjoint. If all velocity differences of band i are at most M, the sum of |g_ij|^2 over j is at most M^2, with equality if all differences have the size M. Other phases of the eigenvectors only multiply g_ij by these phases. The velocities are the derivatives of every differentiable band that passes through the returned eigenvector. Where bands are degenerate the result depends on the basis which eigh happens to return (velocities and sizes of the couplings differ).", "quantifier": "all models (with or without orthogonal Fourier terms), samples, integer index lists and eigensolvers with orthonormal vectors", "why_tests_cant": "The eigenvectors of a library are fixed in a test run; which statements hold for every valid choice of eigenvectors, and which do not, cannot be seen from one choice.", "anchors": ["src/tight_binding_redweasel/bandstructure.py: BandStructureModel.electron_phonon_coupling"]}
{"id": "C118", "title": "fermi_surface_samples: weights, normalisation, Newton steps, areas; three disagreements with its description", "statement": "DensityOfStates.fermi_surface_samples raises AssertionError without a model or for another value of normalize, NotImplementedError for improved_weights without bands_grad or with normalize='band', and returns otherwise. Without improved_weights there is one point, index and weight per sample of the bands whose range contains the energy, with ascending indices. The returned area is det(A)/crystal_volume times the sum of the sample weights; the weights sum up to it for normalize=None, to 1 for 'total', and to 1 in every band for 'band', all without weight_by_gradient. With improved_points and exact gradients the error of the energy of a point of an affine band is multiplied by 1e-20/(1e-20+|g|^2). CubesSmearing.samples scales areas by |det L| |n L^-1|/|n| for every choice of the QR factors, which is the factor of areas in the cut plane; points and gradients belong together; pieces up to 1e-4 are left out, which changes the area by at most 1e-4 of the scale per cube. Disagreements: improved_weights forgets the energy in its Newton step, so that the points of affine bands end at the energy 0; with weight_by_gradient the normalised weights do not sum up to 1; the weights are det(A) times the k-space area, negative for a left-handed lattice.", "quantifier": "all energies, options, bands, samples, lattices, steps, cuts, and QR decompositions", "why_tests_cant": "A test with energy 0, a unit lattice and plain weights passes in spite of all three disagreements; the area factor must hold for all directions of the cut and all QR conventions.", "anchors": ["src/tight_binding_redweasel/density_of_states.py: DensityOfStates.fermi_surface_samples", "src/tight_binding_redweasel/density_of_states.py: DensityOfStates.cut_band_indices", "src/tight_binding_redweasel/smearing.py: CubesSmearing.samples"]}
{"id": "C119", "title": "naive_fermi_energy and naive_energy: counting, shift, sums; the Fermi energy of insulators lies outside of the gap", "statement": "With i = round(number of k-points * electrons) and at least i + 2 states, naive_fermi_energy returns a number r with at least i + 1 states at or below r and at most i + 1 states below r. Shifting all energies shifts the result. With as many electrons as bands, or more, the result is nan. Disagreement: for an insulator with n filled bands and at least two k-points the result is at or above the lowest conduction energy, never in the gap (one index too high). naive_energy is spin times the average over the k-points of the sum over the bands of E f(E), with the Fermi distribution for T > 0 and the step E <= mu for T <= 0; without bands it is nan for T > 0 and a ZeroDivisionError for T <= 0. For T -> 0 states at mu count half, at T = 0 fully: the limit differs from the value at zero by spin/2 * mu * (number of states at mu per k-point).", "quantifier": "all tables of energies, electron numbers, shifts, temperatures and chemical potentials", "why_tests_cant": "For metals with many k-points the off-by-one index is invisible in the numbers; the limit T -> 0 is not reached by any temperature.", "anchors": ["src/tight_binding_redweasel/density_of_states.py: naive_fermi_energy", "src/tight_binding_redweasel/density_of_states.py: naive_energy"]}
{"id": "C120", "title": "Gauss rules for the Fermi function: exact for polynomials up to degree 9, 13, 7, 11", "statement": "gauss_5_df(f, mu, beta) and gauss_7_df(f, mu, beta) return the integral of f(e) times -d/de 1/(1+exp(beta (e-mu))) for every polynomial f of degree at most 9 and 13, with an error of at most 1e-15 times the sum of the sizes of the terms of f in y = beta (e-mu), each integrated with the weight. gauss_4_f and gauss_6_f return the integral of f(e)/(1+exp|beta (e-mu)|) for degrees up to 7 and 11, with a factor 1e-7 (the precision of the bounds used for the integrals). All rules are monotone in f. Degree 9 is the largest possible for gauss_5_df: for ((e-mu) beta)^10 the result is below 3/4 of the integral.", "quantifier": "all polynomials up to the degree, all mu, all beta > 0", "why_tests_cant": "The integrals have no exact numerical counterpart; the theorem compares the decimal tables in the source with integrals of x^k e^x/(1+e^x)^2 (values of the zeta function) for all polynomials at once.", "anchors": ["src/tight_binding_redweasel/density_of_states.py: gauss_5_df", "src/tight_binding_redweasel/density_of_states.py: gauss_7_df", "src/tight_binding_redweasel/density_of_states.py: gauss_4_f", "src/tight_binding_redweasel/density_of_states.py: gauss_6_f"]}
{"id": "C121", "title": "Hall coefficient of cubic metals: formula, sign against the Hall tensor, deprecated version, rotations; heat capacity of KIntegral", "statement": "hall_coefficient_metal_cubic returns per temperature 3V/(2 spin) * integral(v.m v - v^2 tr m) / integral(v^2)^2 with velocities v and inverse masses m in SI units. Disagreement: where the conductivity tensor is a multiple of the unit matrix, the average over the oriented frames of hall_coefficients(*conductivity_hall_tensor(A)) is minus this number. If all carriers have the inverse mass mu, the result times the mean of drude_factor is -q mu. The deprecated hall_coefficient agrees with it wherever the integrals have cubic symmetry. Rotating the lattice changes nothing, a mirror changes the sign. Singular lattices raise LinAlgError. KIntegral.heat_capacity is spin q kB beta integral(e (e-mu)) and changes by s spin q kB beta integral(e-mu) if all energies are moved by s.", "quantifier": "all sample tables, weights, lattices, spin factors and temperatures", "why_tests_cant": "No test compares the two Hall functions; their opposite sign holds for every isotropic conductor and follows only from the general contraction.", "anchors": ["src/tight_binding_redweasel/bulk_properties.py: KIntegral.hall_coefficient_metal_cubic", "src/tight_binding_redweasel/bulk_properties.py: KIntegral.hall_coefficient", "src/tight_binding_redweasel/bulk_properties.py: KIntegral.heat_capacity", "src/tight_binding_redweasel/bulk_properties.py: hall_coefficients"]}
{"id": "C122", "title": "DensityOfStates constructor: grid, symmetry, periodicity check, options, band ranges", "statement": "A successful DensityOfStates(model, N, A, ranges, ...) samples m^3 points (m = N, or N+1 when neither wrapped nor midpoint), row (i m + j) m + l being the equidistant crystal coordinates times inv(A); step_sizes and crystal_volume are those of the ranges. With default ranges the points are inversion symmetric and, when wrapped, invariant under one step, up to reciprocal lattice vectors. Wrong argument counts, too small N and singular A raise the stated errors before the model is used; which smearing and gradient options succeed is characterised exactly. check accepts every periodic model for every positive tolerance and refuses a model off by the tolerance at a drawn point. Without bands_grad_hess the band ranges are the extrema on the grid. With it the ends are energies at most 1.1 step sizes from extremal grid points, exact for parabolic minima within 0.55 steps; disagreements: a grid point can lie below the range, and the range depends on the unit of length.", "quantifier": "all models, lattices, ranges, N, options, drawn points", "why_tests_cant": "Tests use a few models and one lattice; that the refined range may exclude energies on the grid and depends on the length unit needs particular bands, and the index and symmetry statements concern all N.", "anchors": ["src/tight_binding_redweasel/density_of_states.py: DensityOfStates.__init__", "src/tight_binding_redweasel/density_of_states.py: DensityOfStates.check"]}
{"id": "C123", "title": "Bands vary at a bounded rate, so sampled band ranges miss little", "statement": "For a model whose Hamiltonian starts with the neighbour zero, band i at k and band i at k' (numbered by size, crossings included) differ by at most 4 pi sum_r |(k-k').r| ||H_r|| over the other neighbours (Frobenius norm) when the overlap is one; with an overlap series and S(k) >= sigma > 0, E_i(k) exceeds E_i(k') by at most (that sum for H + |E_i(k')| times that sum for S) / sigma. Consequently the two numbers of DensityOfStates.bands_range for such a model without bands_grad_hess are energies of the band, and every energy of the band at any point of the ranges, on the grid or not, lies between them up to 4 pi sum_r (sum_a reach step_a |(A^-1 r)_a|) ||H_r||, where reach is one for wrapped grids and one half for closed and midpoint grids.", "quantifier": "all series, numbers of orbitals and dimensions, all pairs of k-points, all bands; for the ranges all N, lattices, ranges of positive width, wrap and midpoint options", "why_tests_cant": "A test compares the bands at finitely many pairs of points; that no band jumps or leaves the sampled range by more than the bound anywhere in the continuum is a statement about all k-points, and follows from min-max and the size of the coefficients only.", "anchors": ["src/tight_binding_redweasel/tight_binding_asym.py: AsymTightBindingModel.bands", "src/tight_binding_redweasel/tight_binding_asym.py: HermitianFourierSeries.f", "src/tight_binding_redweasel/density_of_states.py: DensityOfStates.__init__"]}
{"id": "C124", "title": "merge_axes merges a run of axes in C order", "statement": "For an array of shape pre + mid + post, merge_axes(arr, start, count) with start = len(pre) (or that minus the number of axes) and count = len(mid) (or larger, if post is empty) returns an array of shape pre + (prod(mid),) + post whose entry at (i1, q, i3) is the entry of arr at (i1, i2, i3), where q is the position of i2 in C order in mid; every q comes from exactly one i2. It raises AssertionError exactly if count < 1 or start is outside of -ndim..ndim-1, and never anything else. The defaults merge the last two axes row by row and refuse arrays with fewer than two axes. Merging one axis is the identity; merging c1 axes and then c2 axes at the same place equals merging c1 + c2 - 1.", "quantifier": "all shapes (zero sized axes included), entries, start axes and counts", "why_tests_cant": "Tests try a few shapes; the bijection between old and new indices and the absence of any reshape error hold for all shapes.", "anchors": ["src/tight_binding_redweasel/linalg.py: merge_axes"]}
{"id": "C125", "title": "geigh, geigvalsh: exact eigenvalues, bounded error of the fast path, exceptions", "statement": "For stacks of hermitian H and positive definite S of equal length geigh and geigvalsh return one result per pair. geigvalsh returns the eigenvalues of the pairs; geigh returns eigenvalues and eigenvectors of the pairs unless the Frobenius norm of S - 1 over the whole stack is below 1e-8, in which case it returns those of H alone; then every eigenvalue differs from that of the pair by at most 1e-8 of its size. A hermitian overlap that is not positive definite anywhere in the stack makes both raise LinAlgError. With fewer overlaps than Hamiltonians geigvalsh raises IndexError, geigh only if it does not take the fast path. geigh_grad on single matrices returns bands and gradients if S is one and dS zero (up to 1e-8), and raises IndexError for any other overlap.", "quantifier": "all stack lengths, matrix sizes, hermitian matrices and overlaps; all library routines satisfying their contracts", "why_tests_cant": "The error bound of the ignored overlap and that no indefinite overlap slips through the fast path concern all matrices near the threshold.", "anchors": ["src/tight_binding_redweasel/linalg.py: geigh", "src/tight_binding_redweasel/linalg.py: geigvalsh", "src/tight_binding_redweasel/linalg.py: geigh_grad"]}
{"id": "C126", "title": "TightBindingModel.init_from_ref: placement of the energies at k = 0, exceptions, and when the start model is right at k = 0", "statement": "If init_from_ref returns, f(0) of the model is diagonal. Without use_repr_order every distinct energy of the first sample at k = 0 (rounded to five decimals) of degeneracy at most the dimension is carried by exactly one class of coupled basis states whatever its degeneracy, energies of higher degeneracy do not occur, all other states lie 0.01 below the lowest energy, less degenerate energies get classes of at most the same size, and the states added to the energies are at most the additional bands. With use_repr_order every distinct energy is carried by one class, lower energies start at an earlier state, and only the lowest and highest energy can have a number of states that is not their degeneracy. The parameters are hermitian, those of the other terms at most 0.003 times the spread. It never returns for a representation with more than one matrix or with inversion. For the trivial group: AssertionError exactly if the data have more distinct energies than the model has bands, else ValueError exactly if there are no data or the stated fitting condition fails, else a model is returned; with as many bands as the data the energies at k = 0 are the data exactly if the data have no degeneracy (contrary to the comment 'make the model correct for k=0'). For any representation with one matrix the exact condition under which a model is returned is stated (enough free classes of at least the degeneracy for every energy, most degenerate first, or with use_repr_order in order of energy), and IndexError and AssertionError are raised for no neighbors and for wrong arguments.", "quantifier": "all representations, neighbors, samples, reference bands, both values of use_repr_order, all orders of the set, all shuffles, all random numbers", "why_tests_cant": "The placement depends on the degeneracies of the data, the class sizes of the representation, the iteration order of a set of floats and on random shuffles; a test sees one combination.", "anchors": ["src/tight_binding_redweasel/tight_binding.py: TightBindingModel.init_from_ref", "src/tight_binding_redweasel/unitary_representations.py: UnitaryRepresentation.subspaces"]}
{"id": "C127", "title": "Symmetry.icosahedral: exactly the operations of the icosahedron; the vertex points to the y-axis", "statement": "icosahedral(inversion) returns for both values of inversion (the closure stays below the limit of 200 elements). The result has 60, with inversion 120, distinct operations, which are a group: exactly the rotations, with inversion all orthogonal matrices, that map the vertices of the icosahedron aligned along the z-axis with an upper vertex at azimuth 90 degrees to vertices. Contrary to the description the upper vertex is aligned towards the y-axis: the operations do not map the icosahedron with a vertex towards the x-axis to itself, and no image of the z-axis other than itself and its opposite lies in the plane of the x- and z-axis.", "quantifier": "both values of inversion, all matrices", "why_tests_cant": "Membership is characterised for all real 3x3 matrices; tests only see the sixty matrices, and a tolerance hides wrong ones.", "anchors": ["src/tight_binding_redweasel/symmetry.py: Symmetry.icosahedral"]}
{"id": "C128", "title": "Symmetry.check_symmetry and check_neighbors: what the answers mean", "statement": "check_symmetry, for any 50 random points: with tolerance 0 it returns True exactly if the function has the same value at all images of each point under self.S; with a tolerance that is not negative False implies a broken symmetry at one of the points, and a function invariant everywhere gives True; True implies that the values at two images of each of the points differ by at most 2 tolerance sqrt(len(self.S)); a negative tolerance always gives False. The inversion is not checked: there is a function not invariant under inversion that always passes for the inversion group. check_neighbors raises AssertionError unless the dimension is 3, and in dimension 3 raises ValueError for every non-empty list of positions whether it fits the symmetry or not.", "quantifier": "all symmetries, functions with complex vector values, tolerances, all outcomes of the random numbers, all lists of neighbors", "why_tests_cant": "The answer depends on 50 random points; tests see some functions and one draw.", "anchors": ["src/tight_binding_redweasel/symmetry.py: Symmetry.check_symmetry", "src/tight_binding_redweasel/symmetry.py: Symmetry.check_neighbors"]}
{"id": "C129", "title": "QECrystal.read_wavefunctions: returns the numbers in the files, sorted by k-point number", "statement": "For wfc*.dat files in the documented layout (records between 4-byte markers) with one common invertible lattice and k-point numbers between 1 and the number of files, read_wavefunctions returns; entry j holds k with B k = xk, the integer vectors row by row, and per band, vector g and polarisation p the coefficient at place g*npol+p of the band's record, all from the last listed file with number j+1; if no file has that number, silently from the first listed file. If the numbers are 1..n in any order the result does not depend on the order of os.listdir nor on other files. No wfc file: IndexError. A file with another lattice than those before: AssertionError. A number above the number of files: IndexError. Contrary to the layout of the files (coefficient of polarisation p and vector g at place p*N_G+g), with two polarisations and at least two vectors the coefficient returned for the first vector and second polarisation is that of the second vector and first polarisation; with one polarisation places agree. A first file which ends within its first 72 bytes raises `IndexError`.", "quantifier": "all file contents in the documented layout with any sizes, any directory order, any decoding of int32 and float64", "why_tests_cant": "Tests would need files of a run of Quantum Espresso; sizes, directory orders and contents are unbounded.", "anchors": ["src/tight_binding_redweasel/qespresso_interface.py: QECrystal.read_wavefunctions"]}
{"id": "C130", "title": "QECrystal.read_charge_density reads eight bytes early and drops the real parts", "statement": "For every charge-density.dat in the documented layout read_charge_density returns N_G vectors and N_G numbers per spin, but contrary to the description: the first number of each spin is the two markers between the records read as a float64, and number g+1 is the imaginary part of coefficient g, so real parts and the last coefficient never reach the result (two files differing only in real parts give the same result); the vectors are cartesian (h b1 + k b2 + l b3), not integer vectors. A file which ends within its first 16 bytes raises `IndexError`, one which ends after the vectors `ValueError`.", "quantifier": "all file contents in the documented layout with any number of vectors and spins", "why_tests_cant": "A test would need a reference density; the statement covers all files of all sizes.", "anchors": ["src/tight_binding_redweasel/qespresso_interface.py: QECrystal.read_charge_density"]}
{"id": "C131", "title": "from_disk: what is taken from the XML file, and that the atom positions come out in the wrong unit", "statement": "For every file with complete sections, from_disk(name, read_output) returns a crystal whose A has the file's lattice vectors times bohr_to_angstrom as columns, with the species of the atoms in order, the file's cutoff, T = degauss/kB exactly for Fermi-Dirac smearing (0 otherwise), relativistic False, the parallelisation numbers, and pp_files updated with the last entry of every species and unchanged elsewhere; a missing section raises IndexError, vectors without three numbers or a singular lattice raise an error. But A @ basis[n] equals the position of the file, which is in bohr, while A is in Angstrom: for a file written by Quantum Espresso for crystal coordinates x the basis is x/0.529..., different from x for every atom not at the origin, and cutoff and temperature are half of those of the run (Hartree read as Rydberg).", "quantifier": "all documents, all lattices with non-zero determinant, all numbers of atoms and species, all positions", "why_tests_cant": "Tests use a few files; the statement is about every file and quantifies the error exactly.", "anchors": ["src/tight_binding_redweasel/qespresso_interface.py: from_disk"]}
{"id": "C132", "title": "The texts written for Quantum Espresso and Wannier90 contain exactly the crystal and the points", "statement": "Split into lines and words, k_points gives the header with the unit, the number of points and one line x y z 1 per point in order; str(KPath) the same with twice the coordinates; k_grid the three sizes (missing ones replaced by the first) without shift; k_points_wannier one line per point between begin and end; k_path_wannier exactly one line per pair of successive marks with both names and A_norm.T @ k; _crystal the unit, the three columns of A as lines, every species exactly once with mass and pseudo potential (as many lines as ntyp) and every atom in order (as many lines as nat); crystal_wannier the same lattice and atoms. A species without mass or pseudo potential raises KeyError, an atom without three coordinates AssertionError.", "quantifier": "all lists of points, all crystals, all ways to print numbers without blanks and line breaks, all iteration orders of the set of species", "why_tests_cant": "Tests compare a few texts; the statement is about every number of atoms, points and marks and every set order.", "anchors": ["src/tight_binding_redweasel/qespresso_interface.py: k_points", "src/tight_binding_redweasel/qespresso_interface.py: k_grid", "src/tight_binding_redweasel/qespresso_interface.py: QECrystal._crystal", "src/tight_binding_redweasel/qespresso_interface.py: QECrystal.crystal_wannier", "src/tight_binding_redweasel/qespresso_interface.py: QECrystal.k_points_wannier", "src/tight_binding_redweasel/qespresso_interface.py: QECrystal.k_path_wannier", "src/tight_binding_redweasel/kpaths.py: KPath.__str__"]}
{"id": "C133", "title": "The cache of KIntegral: integrals do not depend on earlier calls if bands_grad and bands_grad_hess agree, and do if not", "statement": "For any sequence of precompute and integrate_df calls on one KIntegral object (metal), with any integrands that may raise, if the band model's bands_grad and bands_grad_hess return the same velocities, every integrate_df returns what it would return on a fresh object: per moment a and temperature the sum over the Fermi surfaces of w_j (e_j - mu)^a times the sum of weight/(1e-8+|v|) * g; a negative number of moments raises AssertionError. A program of integrals calls the band model once per surface if the first integral has hessians or none has, else twice per surface, however many integrals follow. Without that agreement the order matters: after an integral with hessians an integral without hessians uses the velocities of bands_grad_hess, on a fresh object or after precompute() those of bands_grad; for AsymTightBindingModel with a k-dependent overlap these differ, and so do the integrals.", "quantifier": "all sequences of calls, all integrands, all numbers of surfaces, points and temperatures", "why_tests_cant": "Tests call one integral on a fresh object or a few in one order; the statement is about every interleaving.", "anchors": ["src/tight_binding_redweasel/bulk_properties.py: KIntegral.precompute", "src/tight_binding_redweasel/bulk_properties.py: KIntegral.integrate_df"]}
{"id": "C134", "title": "read_projections_order_spilling works for one atom and raises ValueError for every crystal with more atoms", "statement": "For a crystal with one atom the returned order lists, in the order of the file, the keys that do not contain 'charge' and are not p, d, f, each as '1<type>_<key>', together with the spilling parameter. For every crystal with two or more atoms the function raises ValueError whenever the file names at least one such orbital (if self.types: on a numpy array), so it can never return names for more than one atom.", "quantifier": "all files, all numbers of atoms and orbitals", "why_tests_cant": "A test needs the output of projwfc.x; the statement covers all outputs and shows that no crystal with several atoms works.", "anchors": ["src/tight_binding_redweasel/qespresso_interface.py: QECrystal.read_projections_order_spilling"]}
{"id": "C135", "title": "read_projections returns exactly the content of atomic_proj.xml", "statement": "For every content (k-points, energies, complex projections per band, spin and wave function, overlaps) written in the documented layout, with the wave functions of each k-point in any order, read_projections returns the k-points, the energies times 13.6057 eV, every projection at [k, band, spin, wfc], the overlaps row by row if there are any, the Fermi energy in eV and the electron count. If the file has fewer k-points than its header says the other rows are zero (no error); if it has more, IndexError.", "quantifier": "all sizes, all contents, all orders of the wave functions", "why_tests_cant": "Tests read a few files; the statement is a round trip over all contents and sizes.", "anchors": ["src/tight_binding_redweasel/qespresso_interface.py: QECrystal.read_projections"]}
{"id": "C136", "title": "read_bandx_raw recovers k-points and bands however the numbers are broken into lines", "statement": "If the numbers of the file, read line by line, are the concatenation of rows of three coordinates and nbnd energies, read_bandx_raw returns exactly these coordinates and energies, wherever the line breaks are; a file whose numbers do not fill all rows raises ValueError, a header without nbnd= IndexError.", "quantifier": "all numbers of bands and points, all line breaks", "why_tests_cant": "Tests use one layout; the statement is about every way to break lines.", "anchors": ["src/tight_binding_redweasel/qespresso_interface.py: QECrystal.read_bandx_raw"]}
{"id": "C137", "title": "Valence electrons are summed over all atoms and the cutoff is the largest suggested one", "statement": "read_valence_electrons returns the sum of z_valence over all atoms of the cell, counting repeated types every time; a type without pseudo potential raises KeyError, a fractional valence AssertionError. set_cutoff_from_pseudopotentials sets the maximum of wfc_cutoff over the atoms (attained by one of them and at least as large as all); without atoms it raises ValueError.", "quantifier": "all lists of atom types, all pseudo potential tables", "why_tests_cant": "Tests use a few crystals; the statement covers every multiset of types.", "anchors": ["src/tight_binding_redweasel/qespresso_interface.py: QECrystal.read_valence_electrons", "src/tight_binding_redweasel/qespresso_interface.py: QECrystal.set_cutoff_from_pseudopotentials"]}
{"id": "C138", "title": "ExtraCubesSmearing: exact for linear data, extrapolation of two grids, but negative numbers of states", "statement": "The constructor of ExtraCubesSmearing accepts exactly grids with at least two points and an even number of cubes per axis (IndexError, AssertionError otherwise). Where the data are linear in a pair of cells per axis and the gradient is not nearly parallel to a face, the entry of volume(value) is the true fraction of the double cell below value. The mean of volume over all entries is (4 F - C)/3 with the means F, C of CubesSmearing on the full grid and on every second point. dvolume is the derivative of volume for all data, volume_dvolume returns both, entries are 0 far below and 1 far above the data. The mean is not a distribution function: for the wrapped 2x2x2 grid with one value 0 and seven values 1 it is 0 at -1 and -1/3 at 1/4.", "quantifier": "all grids, all values", "why_tests_cant": "Tests compare a few densities of states; the statements are about all data, and the negative counts appear only for special data.", "anchors": ["src/tight_binding_redweasel/smearing.py: ExtraCubesSmearing"]}
{"id": "C139", "title": "Element tables and the mass of a cell", "statement": "element_numbers maps exactly the 118 element symbols to atomic number minus one; element_masses has a positive entry for each. For known types _mass_per_cell is 1.66053907e-27 times the sum of the atomic masses plus 9.1093837e-31 times the sum of (Z - 1); it does not depend on the order of the atoms, adds up over parts of the cell and is positive; an unknown type raises KeyError. So the term called electron mass misses one electron per atom (hydrogen gets none), and is added to atomic masses that already contain the electrons.", "quantifier": "all lists of atom types", "why_tests_cant": "Tests use a few compounds; the shift by one in the number of electrons changes the result only in the fourth digit.", "anchors": ["src/tight_binding_redweasel/qespresso_interface.py: _mass_per_cell", "src/tight_binding_redweasel/qespresso_interface.py: element_numbers"]}
{"id": "C140", "title": "qe_prepare: directories, dictionary of pseudopotentials, and which texts reach the shell", "statement": "After qe_prepare the directories ./qe-data and ./pseudo exist and the module variable pp_files is the given dictionary (or the previous one) with every None replaced by the default file name, in the same order. If all files are in ./pseudo nothing is run. Every command that is run is the download of a listed file whose first character is a letter, digit, dot or minus. The check looks at no other character: for every text after an allowed first character, if that file is missing, the command with the full text is passed to the shell, although the check is there to prevent command injection.", "quantifier": "all dictionaries, all states of the disk, all results of the commands", "why_tests_cant": "Tests cannot run downloads and use harmless names; the defect is about all names.", "anchors": ["src/tight_binding_redweasel/qespresso_interface.py: qe_prepare"]}
{"id": "C141", "title": "export_3D_fermi_surface: reading the .obj file gives back the surfaces; materials and units", "statement": "For N >= 1, reading the .obj file by the rules of the format gives exactly the triangles that marching_cubes returned for the bands crossing the Fermi energy, in increasing order of the bands, with formatted corner coordinates, in a group named after the band; the j-th surface uses material color{j}. For N = 0 the call raises IndexError after the header; if a surface cannot be computed its exception is raised and the file contains the surfaces before. A material that the .mtl file does not define is used exactly if more bands cross the Fermi energy than matplotlib has colours. The coordinates count grid points: exporting moved and scaled bands on the moved and scaled range gives the same file.", "quantifier": "all models, energies, grid sizes, ranges and meshes", "why_tests_cant": "Tests would compare a few files; offsets between surfaces and missing materials show only with several or many surfaces.", "anchors": ["src/tight_binding_redweasel/fermi_surface.py: export_3D_fermi_surface"]}
{"id": "C142", "title": "k-points in the input of Wannier90", "statement": "prepare_wannier without grid_size succeeds exactly without symmetry and if the number of k-points read is a cube, and writes them as read; otherwise AssertionError. With grid_size = n it writes every (i/n, j/n, k/n) once, as point number (j n + i) n + k. Whenever a file is written, its number of k-points is the product of mp_grid. prepare_plot_wannier_bands writes the same data; by default bands_num_points is the index of the second marked point (IndexError if there is none). For a full grid in the order of Quantum Espresso (first coordinate slowest) and n >= 2, giving the right grid_size writes the points in another order than that of the calculation.", "quantifier": "all k-points, bands, sizes, options", "why_tests_cant": "The functions need files of Quantum Espresso; the statements are about all grids.", "anchors": ["src/tight_binding_redweasel/qespresso_interface.py: prepare_wannier", "src/tight_binding_redweasel/qespresso_interface.py: prepare_plot_wannier_bands"]}
{"id": "C143", "title": "Printed orbitals and broken curves", "statement": "print_orbitals prints exactly the orbitals whose |a|^2 is at least the threshold, once each, with the largest first, and \"None\" if there is none; it raises IndexError exactly if an orbital without a name reaches the threshold. For a normalised state at most 1/threshold orbitals are printed and their contributions sum to at most one. The curves drawn by plot_bands are the samples in their order, broken into pieces with strictly increasing position on the path, and broken only where the position does not increase.", "quantifier": "all coefficient lists, name lists, thresholds, sample lists", "why_tests_cant": "The output goes to the terminal or a figure; the statements hold for all inputs.", "anchors": ["src/tight_binding_redweasel/qespresso_interface.py: print_orbitals", "src/tight_binding_redweasel/qespresso_interface.py: plot_bands"]}
{"id": "C144", "title": "Labels and colours of band plots", "statement": "KPath.plot with label_bands puts ticks at the different rounded band positions in ascending order, and the label at a tick names exactly the bands rounded to it, each once, in ascending order, with a-b standing for at least three bands and maximal ranges. KPath.plot_comparison shifts by the first of the shifts 1-nr..nm-1 with the smallest norm of the difference of overlapping bands at the first point (ValueError if there are fewer than two bands in total); two bands get the same place in the colour cycle exactly if the shift lays them on each other; if one function has a block of the (pairwise different) bands of the other, the shift is the right one. For two equal functions with n >= 2 bands that meet at the first point the shift is 1-n and no band keeps its colour.", "quantifier": "all bands, rounding functions, numbers of bands", "why_tests_cant": "The result is a picture; the statements are about all band energies.", "anchors": ["src/tight_binding_redweasel/kpaths.py: plot", "src/tight_binding_redweasel/kpaths.py: plot_comparison"]}
{"id": "C145", "title": "What the plots of Fermi surfaces show", "statement": "plot_3D_fermi_surface_to_ax draws, in order, the bands with samples on both sides of the Fermi energy, at most as many as there are colours, with all triangles. With N samples per direction every triangle is drawn too near to the lower end of k_range, by the factor (N-1)/N, and nothing is drawn in the last 1/N of the range. plot_2D_fermi_surface without accelerate draws for each z and each model the contours of the bands crossing the Fermi energy, with colours 0, 1, 2, ...; with accelerate it draws one contour of the product of all energies relative to the Fermi energy, exactly if one sample has an even and one an odd number of bands below (and none at) the Fermi energy. If every energy occurs an even number of times, nothing is drawn with accelerate even if bands cross the Fermi energy.", "quantifier": "all models, energies, grids, ranges", "why_tests_cant": "The result is a picture; the statements are about all models.", "anchors": ["src/tight_binding_redweasel/fermi_surface.py: plot_3D_fermi_surface_to_ax", "src/tight_binding_redweasel/fermi_surface.py: plot_2D_fermi_surface"]}
{"id": "C146", "title": "Tetrahedron method: accurate for all corner values, equal ones included", "statement": "For a linear function on the unit tetrahedron unit_tetra_cut_volume differs by at most 8e-8 from the volume on which the function is positive, for all corner values, equal or not; the only exception is a function which is zero on the whole tetrahedron (there 7/15 of it is counted). If no slope is clamped the result is the volume itself, also with equal corner values. TetraSmearing.volume(value) is, for each cell and on average over the grid, within 5e-7 of the fraction of the cell on which the linear interpolation in the six tetrahedra around the diagonal is below the value; hence it lies between 0 and 1 and does not decrease up to this error. TetraSmearing.dvolume(value) is the derivative of volume(value) at every value which is not a corner value.", "quantifier": "all corner values, all energies, all grids with and without wrap", "why_tests_cant": "The formula divides by differences of corner values; equal and nearly equal values are single points in a continuum, and the bound holds for all of them.", "anchors": ["src/tight_binding_redweasel/smearing.py: unit_tetra_cut_volume", "src/tight_binding_redweasel/smearing.py: unit_tetra_cut_dvolume", "src/tight_binding_redweasel/smearing.py: cube_tetra_cut_volume", "src/tight_binding_redweasel/smearing.py: TetraSmearing"]}
{"id": "C147", "title": "Cube method: accurate for all gradients, and in agreement with the tetrahedron method", "statement": "CubesSmearing.volume(value) of a cell differs by at most 2e-4 from the fraction of the cell on which its linear interpolation is below the value, for every gradient of norm at least 1e-38, with components that are zero or arbitrarily small (which cube_precomp replaces by 1e-4 of the norm). In a cell with zero gradient it is exactly 0 or 1 unless value and centre agree up to 1.5e-44 (1/2 if they are equal). For arbitrary corner values the result is within 2e-4 + eta/kappa of the fraction below the value under interpolation in six tetrahedra, where eta is the largest deviation of a corner from the linear fit and kappa the largest slope of the fit; so on a grid of cells the number of states of DensityOfStates with method cubes agrees with that of TetraSmearing up to 2.005e-4 + rho, with rho the largest ratio of deviation and slope.", "quantifier": "all values, centre values and gradients; all corner values of a cell; all periodic grids of any size", "why_tests_cant": "Tests compare single gradients. Clamping matters exactly for gradients along axes and planes, and a bound on the error needs all directions and offsets at once, as does a comparison of two interpolations on cells that are not linear.", "anchors": ["src/tight_binding_redweasel/smearing.py: cube_precomp", "src/tight_binding_redweasel/smearing.py: cube_cut_volume", "src/tight_binding_redweasel/smearing.py: CubesSmearing", "src/tight_binding_redweasel/smearing.py: TetraSmearing", "src/tight_binding_redweasel/density_of_states.py: DensityOfStates"]}
{"id": "C148", "title": "Runs of Quantum Espresso: the input file holds exactly the requested settings, and one command reads it", "statement": "scf, relax, bands, nscf and nscf_nosym write one file {name}.X.in and run one command, pw.x with the multitasking parameters, -in that file and tee to {name}.X.out; no other file changes. Read back as Fortran namelists the file has exactly the settings of the method: calculation, prefix, directories, ibrav 0, nat, ntyp, cutoff, number of bands, smearing, spin-orbit coupling if and only if relativistic, the fixed volume of relax; nat and ntyp agree with the lines of ATOMIC_POSITIONS and ATOMIC_SPECIES below them; the k-points are those given. degauss is k_B*T in Rydberg up to 1e-10 for T != 0 and 0.02 with Marzari-Vanderbilt smearing for T = 0. The same holds for bandx, dos, projections, overlaps_for_wannier, fermi_surface, dielectric_function and wannier with their programs. If an element has no mass or pseudopotential, or an atom has not three coordinates, the method raises, runs nothing and leaves the input file empty. With an absolute path as name, nscf writes a file different from the one that pw.x is told to read.", "quantifier": "all crystals, names without blanks and commas, cutoffs, temperatures, grids, k-point texts, band counts, orders of the set of elements, and file systems", "why_tests_cant": "The programs are not available to tests, and the text depends on all fields at once; that no other setting is in the file, and that the counts agree for every crystal, is a statement about all inputs.", "anchors": ["src/tight_binding_redweasel/qespresso_interface.py: scf", "src/tight_binding_redweasel/qespresso_interface.py: relax", "src/tight_binding_redweasel/qespresso_interface.py: bands", "src/tight_binding_redweasel/qespresso_interface.py: nscf", "src/tight_binding_redweasel/qespresso_interface.py: nscf_nosym", "src/tight_binding_redweasel/qespresso_interface.py: _run", "src/tight_binding_redweasel/qespresso_interface.py: dielectric_function", "src/tight_binding_redweasel/qespresso_interface.py: overlaps_for_wannier", "src/tight_binding_redweasel/qespresso_interface.py: fermi_surface", "src/tight_binding_redweasel/qespresso_interface.py: projections", "src/tight_binding_redweasel/qespresso_interface.py: dos", "src/tight_binding_redweasel/qespresso_interface.py: bandx"]}
{"id": "C149", "title": "Readers of the texts of bands.x, dos.x, epsilon.x and pw.x", "statement": "`read_bandx` returns the numbers at the ends of all lines of `{name}.bandx.out` with \"high-symmetry point\" in their order, and the two columns of the file named at the end of the last line with \"Plottable bands (eV) written to file\"; without such a line it raises `IOError`. `read_dos` returns the three columns of `{name}.Dos.dat` and the number before `eV` at the end of a first line which names `EFermi`; without `EFermi` or with a blank behind `eV` the Fermi energy is `None`, with two blanks before `eV` `ValueError` is raised, and with one energy the table is a vector. `read_dielectric_function` returns the first column of `epsr_{name}.dat` and row by row the complex numbers with the parts of the two files; for different numbers of frequencies it raises `ValueError`, for one frequency `IndexError`. `version` returns the word between `v` and \"starts\" of the second line, with the `v`, and raises `IndexError` if nothing was printed.", "quantifier": "for all texts (any numbers of lines, rows and columns, any blanks and empty lines), names, file contents and ways to read a number", "why_tests_cant": "The layouts of the texts are unbounded and the programs that write them are not available in tests; a few recorded files do not show what happens for other blanks, one row or missing lines.", "anchors": ["src/tight_binding_redweasel/qespresso_interface.py: QECrystal.read_bandx", "src/tight_binding_redweasel/qespresso_interface.py: QECrystal.read_dos", "src/tight_binding_redweasel/qespresso_interface.py: QECrystal.read_dielectric_function", "src/tight_binding_redweasel/qespresso_interface.py: version"]}
{"id": "C150", "title": "Random changes of a model and the printed errors and norms", "statement": "`randomize(sigma, keep_zeros)` of both model classes keeps the neighbours, the number of matrices and the symmetrizer; it adds `sigma * (x + iy)` with the drawn numbers to every entry, except that with `keep_zeros` entries of absolute value below 1e-8 stay exactly as they are; the overlap changes only with `randomize_S`. For `sigma != 0` and without `keep_zeros` the resulting `H(k)` of a hermitian model is hermitian exactly if the numbers drawn for the first matrix form a hermitian matrix, so in general it is not; `normalize` afterwards gives a model with hermitian `H(k)` for all k, overlap 1 and diagonal Hamiltonian at k=0, whatever was drawn. No entry of `H(k)` moves by more than `sigma` times the sum of the absolute values drawn for this entry and (for the neighbours after the first) its mirror entry. `print_error` prints the error for weights divided by their mean and the unweighted maximal error per band: it does not change if the weights are scaled, one weight is the same as no weights, a wrong number of weights raises `ValueError`, an empty reference `IndexError`. `print_model_norms` prints one line per matrix in order, but for a model without `exp` and without inversion only the first `len(neighbors)` of the `2*len(neighbors)-1` matrices: the others have no influence on what is printed.", "quantifier": "for all models, sizes, sigma, drawn numbers, k, bands, references, weights and offsets", "why_tests_cant": "The numbers are random, so that a test sees one draw; hermiticity for all k and all draws and the bound hold for infinitely many inputs. What is printed is not looked at by tests.", "anchors": ["src/tight_binding_redweasel/bandstructure.py: BandStructureModel.randomize", "src/tight_binding_redweasel/bandstructure.py: BandStructureModel.print_error", "src/tight_binding_redweasel/bandstructure.py: BandStructureModel.print_model_norms", "src/tight_binding_redweasel/tight_binding_asym.py: AsymTightBindingModel.randomize", "src/tight_binding_redweasel/tight_binding_asym.py: AsymTightBindingModel.print_error"]}
{"id": "C151", "title": "The surface samples of a whole grid lie in their cells and on the surface, with exact gradients and weights", "statement": "`CubesSmearing.samples(value)` returns one sample for every cell of the grid whose cut has an area above 1e-4, in the order of the cells. Every sample lies in its cell (no crystal coordinate is further from the cell centre than half a step), its gradient is the gradient of the linear fit of the cell in cartesian coordinates, and the linear fit has the wanted value at the sample: exactly if no component of the gradient is below 1e-4 of its norm, and in every case up to 1.5e-4 times the norm of the change over the cell. For values which are an affine function of k on a regular grid in any lattice, all samples have exactly the gradient of the function and lie on its surface (with the same bound); the same holds with given gradients. The weight divided by the norm of the gradient is the density of states of the cell times the volume of the cell. `ExtraCubesSmearing.samples` returns the samples of `CubesSmearing.samples`. `CubesSmearing(...)` raises exactly for a singular lattice, fewer than two points along an axis, or gradients without wrapping (`NotImplementedError`); `ExtraCubesSmearing(...)` exactly for a singular lattice, fewer than two points along an axis or an odd number of cells along an axis.", "quantifier": "for all lattices, grids, sizes, steps, values, gradients, levels and QR decompositions", "why_tests_cant": "Surfaces cut the cells in infinitely many ways; tests look at single surfaces with rough tolerances in which samples outside of their cell or a wrong weight of a few cells are not seen.", "anchors": ["src/tight_binding_redweasel/smearing.py: CubesSmearing.__init__", "src/tight_binding_redweasel/smearing.py: CubesSmearing.samples", "src/tight_binding_redweasel/smearing.py: ExtraCubesSmearing.__init__", "src/tight_binding_redweasel/smearing.py: ExtraCubesSmearing.samples", "src/tight_binding_redweasel/smearing.py: cube_cut_area_com"]}
{"id": "C152", "title": "Copies of a model share the neighbours: what a method call changes in other objects", "statement": "Take any program which makes models with `BandStructureModel.init_tight_binding`, makes further ones with `copy()`, `model + number`, `model * number`, and calls methods on them in any order. Methods that change `params` (by writing into the array or by assigning a new one) change the object they are called on and no other object; as long as `transform` is not called, all objects behave as independent values. `transform(A)` however changes exactly all objects of the family of the object, i.e. everything made by `copy`, `+`, `*` from the same `init_tight_binding`, in both directions: transforming a copy transforms the original, and after transforming both the original with A and its copy with B both have the neighbours B A r. So the Hamiltonian of a model can change when only a copy of it is transformed.", "quantifier": "for all programs (lists of statements of any length), numbers of objects, models, matrices, changes of the parameters and transformations", "why_tests_cant": "Aliasing shows only in programs which use two objects after one of them was changed; a property of all interleavings of all methods on all copies of copies is beyond tests.", "anchors": ["src/tight_binding_redweasel/bandstructure.py: BandStructureModel.copy", "src/tight_binding_redweasel/bandstructure.py: BandStructureModel.transform", "src/tight_binding_redweasel/bandstructure.py: BandStructureModel.__add__", "src/tight_binding_redweasel/bandstructure.py: BandStructureModel.__mul__", "src/tight_binding_redweasel/bandstructure.py: BandStructureModel.init_tight_binding"]}

# DESIGN: formal model of redweasel/tight-binding in Lean 4

Layout under `/verif/lean/Verif`:

* `Model/*.lean`  – shallow, total, function-by-function models of the Python code, each
  definition with a comment citing file and lines in `/repo/src/tight_binding_redweasel`.
  Python exceptions are values (`Except Err _`); methods that change an object return the object afterwards
  together with the result or exception.
* `Spec/*.lean`   – the small, model independent vocabulary used in theorem statements.
* `Lemmas/*.lean` – helper lemmas.
* `Props/*.lean`  – the property theorems `Cnn_...`, each followed by an `example` that shows a
  non-trivial instance meeting the hypotheses.
* `Audit.lean`    – generated; prints the axioms of each property theorem.

`properties.jsonl` has the English statements, `MANIFEST.json` maps them to theorem names,
`seeded/LOG.jsonl` records the mutation tests of the theorems.

## Trusted base

* Lean 4.33.0 kernel, Mathlib (installed copy), the axioms `propext`, `Classical.choice`, `Quot.sound`
  (printed for each property theorem by `Verif/Audit.lean`; many need fewer); nothing else. No own axioms, no `sorry`, no
  `native_decide`, no `bv_decide`. `decide +kernel` is used for finite tables and examples (kernel evaluation only).
* The hand translation Python -> Lean. The code was never run; the translation is documented line by line.
* Numbers: floating point numbers are idealised to a linearly ordered field (computable over ℚ for the
  examples) or to ℝ/ℂ where exp, sqrt or derivatives occur. Rounding errors are **not** modelled.
* Tolerances: comparisons such as `norm(a-b) < 1e-7` are idealised to `a = b` unless the comment of the
  definition says otherwise (thresholds that matter for the property, e.g. the JSON `1e-14`, the rounding to
  2 or 4 decimals in sort keys, the `1.0001` norm cut, are kept).
* numpy/scipy library routines (`eigh`, `svd`, `KDTree.query`, `argsort`, `linear_sum_assignment`, ...) are
  either given an executable list model (stable sort, nearest point lookup with exact equality) or appear as
  parameters with their documented contract as hypothesis (shown satisfiable by the examples).

## What is modelled

| Model file | Source file | Functions |
|---|---|---|
| `Symmetry`, `SymmetryPoints`, `SymmetryDiv`, `NamedGroups` | `symmetry.py` | class `Symmetry`: constructor, `from_generator`, `len`, listing, `transform`, `dual`, `copy`, `*`, `/`, `in`, `==`, `check`, `subgroup`, `r_class_size`, `k_weight`, `realize_symmetric(_data)`, `reduce_symmetric_data`, `symmetrize` (tensors), `equivalence_classes`, `conjugacy_classes`, `find_classes`, `complete_neighbors`, neighbour lookups, all named groups except `icosahedral` |
| `SpaceGroup` | `symmetry.py`, `qespresso_interface.py` | the `projective` flag: `space_group`, `point_group`, `strict_point_group`, `remove_translation`, `ignore_translation`, `space_dim`, `transform`, `dual`, `transpose`, `*`, `copy`; `QECrystal.read_bands_crystal` after XML parsing |
| `UnitaryRep`, `NamedReps` | `unitary_representations.py` | class `UnitaryRepresentation`: constructor, `from_generator`, `copy`, `match_sym`, `check`, `symmetrize`, `symmetrizer`, `symmetrize2`, `realize_symmetric_matrices`, `check_symmetry`, `subspaces`, `permute`, `+`, `*`, the named representations |
| `HamiltonianSymmetry` | `hamiltonian_symmetry.py` | class `HamiltonianSymmetry` without projective symmetries: constructor, `dim`, `copy`, `append`, all `append_…` methods, `get_band_name`, `apply`, `symmetrize`, `symmetrizer`, `realize_symmetric` (before the final sort) |
| `Fourier`, `EigGrad` | `tight_binding_asym.py`, `linalg.py` | `HermitianFourierSeries` (all evaluation and neighbour methods), `AsymTightBindingModel` (sum, scale, shift, transform, permute, normalize, gradients of bands), `eigh_grad`, `geigh_grad`, `eigh_grad_hess` |
| `TightBinding` | `tight_binding.py` | class `TightBindingModel`: constructor, `f_i` … `ddf_i`, `f`, `df`, `ddf`, `normalize`, `params_complex`, `set_from_complex`, `bands_grad`, `bands_grad_hess`, `copy` (objects with inversion do not exist, so that branch is left out) |
| `TbmDescent` | `tight_binding.py` | `TightBindingModel.optimize` (printed losses left out) |
| `Supercell`, `FreeElectronModel` | `tight_binding_asym.py` | `AsymTightBindingModel.supercell`, `free_electron_model_orthogonal` |
| `Optimize` | `tight_binding_asym.py`, `bandstructure.py` | `optimize_cg` of both model classes (logger and `train_S`, which has no effect, left out) |
| `Descent` | `bandstructure.py` | `BandStructureModel.optimize` (logger left out; the loss of `self.error`, used with batches, is a parameter) |
| `AsymDescent` | `tight_binding_asym.py` | `AsymTightBindingModel.optimize` (logger and `use_lstsq_stepsize=True` left out) |
| `BandStructure` | `bandstructure.py` | `BandStructureModel`: parametrisations, `f`, `df`, `ddf`, `params_complex`, `set_params_complex`, `permute`, `transform`, `+`, `*`, `normalize`, `supercell`, python file format |
| `Formats` | `json_tb_format.py`, `wannier90_tb_format.py` | JSON `save`/`load`, `tb.dat` and `hr.dat` readers (token level) |
| `Loss`, `Logger` | `loss.py`, `logger.py` | loss functions incl. windowed search and assignment, error histogram, `OptimisationLogger` state machine |
| `KPath`, `KPoints` | `kpaths.py` | `KPath` state machine; the dictionary `points`, `_hsp` (least squares routine: contract of smallest norm for solvable systems), `hexagonal_points`, `tetragonal_bc_points` with the module variable, `trigonal_points` |
| `Interpolate` | `symmetry.py`, `kpaths.py` | `realize_symmetric_data(average_bad_duplicates=True)`; `interpolate` (`RegularGridInterpolator`: a parameter that reproduces grid values and raises outside of the range; a `grid` of other dimension than the points is left out), `interpolate_unstructured` (`KDTree.query`: contract of nearest neighbour); rounding before sorting is a key function |
| `Files` | `tight_binding_asym.py`, `bandstructure.py` | `save` and `load` of `AsymTightBindingModel` and `BandStructureModel`; the file system and numpy's print options are state. Parameters: `json.dump/load`, `repr/eval` (contract: they read what they wrote, `eval` up to 100000 numbers per array), sorting, the Wannier90 readers (modelled in `Formats`; a reader that hangs is left out), completing neighbours in the branch of `AsymTightBindingModel.load` that always raises |
| `InitRef` | `tight_binding_asym.py` 228-249, `bandstructure.py` 117-148, `linalg.py` 60-62 | `AsymTightBindingModel.init_from_ref`, `BandStructureModel.init_from_ref`, `init_tight_binding_from_ref`, `random_hermitian`; the random arrays are parameters with entries in [0, 1] |
| `Autofit` | `tight_binding_asym.py` 931-997 | `autofit_asym`: order of the samples, restarts, first matrix, checkpoints, loop over the neighbours; the called functions (`complete_neighbors`, `argsort`, `randomize`, `normalize`, `optimize_cg`, `error`) are parameters, `save`, `add_neighbors` and the logger are those of `Files`, `Fourier`, `Logger` |
| `Phonon` | `bandstructure.py` 793-812 | `electron_phonon_coupling` for lists of integer indices |
| `FermiSamples` | `density_of_states.py` 394-400, 735-863; `smearing.py` 217-247 | `cut_band_indices`, `fermi_surface_samples`, coordinates, weights and selection of `CubesSmearing.samples`; the areas and centres of the cut cubes are parameters, and so are the new weights of `improved_weights=True` (832-853) |
| `Naive` | `density_of_states.py` 181-191 | `naive_fermi_energy`, `naive_energy` with Python's `round`, slices with clipped ends, means of empty lists as `none` (nan) |
| `Gauss` | `density_of_states.py` 13-46 | `gauss_5_df`, `gauss_7_df`, `gauss_4_f`, `gauss_6_f` with the decimal tables of the source as rationals; real values of `f` |
| `BulkCubic` | `bulk_properties.py` 394-431 | `hall_coefficient_metal_cubic`, `hall_coefficient`, `heat_capacity` of `KIntegral` |
| `DosInit` | `density_of_states.py` 211-338 | `DensityOfStates.__init__` (grid, band energies, `bands_range` with Newton steps, options), `check`; `np.linalg.pinv` is a parameter, ranges of width zero excluded |
| `MergeAxes` | `linalg.py` 47-55 | `merge_axes`; arrays are a shape and a list of entries in C order |
| `Geigh` | `linalg.py` 67-107 | `geigh`, `geigvalsh`, the paths of `geigh_grad` for two- and three-dimensional arrays; `eigh` of numpy and scipy are parameters |
| `TbmInitRef` | `tight_binding.py` 51-158 | `TightBindingModel.init_from_ref`: order of the set of energies, shuffling and random matrices are parameters; printing left out |
| `Icosahedral` | `symmetry.py` 467-480 | `Symmetry.icosahedral` over the reals |
| `CheckSym` | `symmetry.py` 502-524, 731-758 | `Symmetry.check_symmetry` (the 50 random points are a parameter, the tolerance is kept), `check_neighbors` (shapes only, the rest of its loop is never reached) |
| `QeBinary` | `qespresso_interface.py` 711-825 | `QECrystal.read_wavefunctions`, `read_charge_density` on lists of bytes; the decoding of `int32`/`float64` and the order of `os.listdir` are parameters; the layout of the files is in `Spec/QeFiles` |
| `FromDisk` | `qespresso_interface.py` 1354-1421 | `from_disk` on the numbers and names found in the XML (lexing not modelled); what Quantum Espresso writes is in `Spec/QeXml` |
| `QeCards` | `qespresso_interface.py` 233-263, 847-860, 1099-1113, 1158-1176; `kpaths.py` 245-249 | `k_points`, `k_grid`, `_crystal`, `crystal_wannier`, `k_points_wannier`, `k_path_wannier`, `KPath.__str__` on lists of characters; printing of numbers and the order of a set are parameters; lines and words are in `Spec/Cards` |
| `KIntegralCache` | `bulk_properties.py` 221-299 | `KIntegral.precompute`, `integrate_df` as operations on the cached fields with a log of the calls of the band model; integrands are functions of whole arrays and may raise, but do not write to their arguments |
| `QeRead` | `qespresso_interface.py` 431-447, 574-708 | `read_bandx_raw`, `read_projections_order_spilling`, `read_projections`, `read_valence_electrons`, `set_cutoff_from_pseudopotentials` on the numbers and names of the files (lexing not modelled); the layout of `atomic_proj.xml` is in `Spec/ProjXml` |
| `ExtraCubes` | `smearing.py` 259-317 | `ExtraCubesSmearing`: constructor (without the positions), `volume`, `dvolume`, `volume_dvolume` on whole grids |
| `Elements` | `qespresso_interface.py` 78-79, 392-395 | `element_masses`, `element_numbers`, `_mass_per_cell` (decimal numbers as rationals) |
| `QePrepare` | `qespresso_interface.py` 85-117 | `qe_prepare`: directories, dictionary of file names, log of printed texts and shell commands; the effect of a command on the disk is a parameter |
| `ObjExport` | `fermi_surface.py` 96-147 | `export_3D_fermi_surface`: lines of the files; `marching_cubes` and the formatting of numbers are parameters; of the materials only the names |
| `WannierGrid` | `qespresso_interface.py` 1181-1251, 1289-1332 | `prepare_wannier`, `prepare_plot_wannier_bands`: the data in the file that depend on the arguments, without constant lines and the call of the program |
| `QeShow` | `qespresso_interface.py` 265-282, 466-474 | `print_orbitals`, breaking of lines in `plot_bands`; `argsort` is a parameter with a contract |
| `Plots` | `kpaths.py` 122-193, 195-225, `fermi_surface.py` 35-81, 150-194 | data passed to matplotlib by `KPath.plot` (labels, colours), `plot_comparison`, `plot_3D_fermi_surface_to_ax`, `plot_2D_fermi_surface`; labels as lists of items instead of texts; `marching_cubes` and rounding of positions are parameters; without shading and axes |
| `TetraGrid` | `smearing.py` 424-452 | `TetraSmearing` on whole grids: `volume`, `dvolume`, `volume_dvolume` |
| `QeInput` | `qespresso_interface.py` 864-1097, 1115-1135, 1143-1156, 1260-1284, 1340-1351 | the methods which write an input file and run a program: text of the file, file system, command; `ibrav` is 0 (315), messages on the screen left out; the namelist reader is in `Spec/Namelist` |
| `QeOutput` | `qespresso_interface.py` 284-292, 449-464, 827-843, 1137-1141 | the readers of texts, with `np.loadtxt` as far as used; `float` is a parameter, line ends are `\n`, white space is that of ASCII |
| `Randomize` | `bandstructure.py` 146-156, 228-244; `tight_binding_asym.py` 309-323, 346-353 | `randomize`, `print_error`, `print_model_norms`; the random numbers are parameters, of the printed text only the numbers are kept |
| `CubeSamples` | `smearing.py` 160-205, 217-247, 264-293, 319-349 | `CubesSmearing` and `ExtraCubesSmearing` from the grid of points to the surface samples: checks, crystal coordinates, steps, cell centres, linear fits, cuts, filter; the QR decomposition is a parameter |
| `Sharing` | `bandstructure.py` 57-95, 104-116, 809-821, 886-906 | objects of `BandStructureModel` with references to arrays on a heap: `init_tight_binding`, `copy`, `+`, `*` with a number, methods writing or assigning `params`, `transform`; a fixed number of bands, default tight binding models only |
| `Smearing`, `Dos` | `smearing.py`, `density_of_states.py` | cube, sphere and tetrahedron kernels, cell fit, `DensityOfStates` counting, `fermi_energy`, `bandgap`, `energy`, `convolve_df`, `convolve_ddf`, `secant`, `int_poly`, Richardson extrapolation |
| `DosThermal` | `density_of_states.py` | `_samples`, `full_curve`, `k_resolved_density`, `chemical_potential`, `seebeck`, `heat_capacity`, `energy` at positive temperature; values that are not finite numbers (`nan`, infinite) are `none` |
| `Bulk`, `KIntegral`, `FermiSurface` | `bulk_properties.py`, `fermi_surface.py` | transport tensors, Hall coefficients, integration weights, `KIntegral` constructor, `FreeElectrons`, band selection of `fermi_surface` |
| `Lattice` | `qespresso_interface.py` | lattice constructors, density scaling |
| `Linalg` | `linalg.py` | `direct_sum`, `kron`, `pointcloud_distance`, `lattice_in_sphere`, `conjugate_gradient_solve` |

Not modelled: plotting and printing apart from the rows above, `optimize(use_lstsq_stepsize=True)`,
`slater_koster.py` (cannot be imported:
`from typing import tuple`), text parsing in `qespresso_interface.py` and what the started programs do (the binary files are in `QeBinary`, the written texts in `QeCards`, the XML readers in `FromDisk`, `QeRead`, the preparation of directories in `QePrepare`, input files and commands in `QeInput`),
text lexing of files.

## How the properties are proved

| Property | Method |
|---|---|
| C01–C03 | loop invariant of the 200-round fixpoint loop (contains generators, duplicate free, inside the submonoid closure); a round without growth means closed; counting argument for the round limit |
| C04, C05 | case analysis on parity; determinant argument for odd dimension; counterexample in dim 2 |
| C06 | matrix algebra |
| C07, C08 | orbit–stabiliser on lists; invariance of integrality |
| C09, C10 | membership invariants; iterated stable sort makes equal vectors adjacent |
| C11 | loop invariant; counterexample for the rounding |
| C12 | reindexing the group sum |
| C13, C14 | well-founded loop, partition invariant |
| C15, C16 | from C09; exact lookup |
| C17–C19, C53, C54 | counting; sum of minima; coset counting |
| C20–C29 | algebra over ℂ, `HasDerivAt`, list invariants |
| C30, C72–C76 | trigonometric identities, list sums, derivative rules; the type lattice of numpy for `supercell` |
| C31–C33 | permutation/sort lemmas, parser invariants, divergence by induction on fuel |
| C34–C36, C56, C57 | algebra, minima over offsets, induction over call sequences |
| C37, C38 | induction over call sequences of the state machine |
| C39, C40, C71 | matrix algebra, positive semidefinite sums |
| C41–C43 | direct; Gram matrices, determinants |
| C44–C46, C58, C59 | piecewise polynomial calculus; the true volume is a Lebesgue measure; least squares normal equations |
| C47, C48, C60–C67 | loop invariants of the bisection, integrals of the Fermi derivative |
| C49 | loop invariant of the CG iteration with Krylov orthogonality |
| C50–C52 | block matrix algebra; bounding box inequality; product rule; for the sorted bands (`C52_simple`, `C52_bands_simple`, `C52_bands_hess_simple`) min-max principle with a first order estimate, and the adjugate of `H(t) - e(t)` as a differentiable eigenvector |
| C55 | points of the half open cell are representatives of the superlattice cosets (index by determinants); Bloch sums reindexed by cosets; completeness by orthogonality of characters of the quotient group |
| C68–C70 | Lagrange interpolation against moments; case analysis of the constructor |
| C77, C78 | kernel evaluation of finite tables plus a characterisation for all matrices; roots of unity for every order |
| C79–C84 | pair-dictionary loop invariant, permutation of association lists, block and Kronecker algebra |
| C85, C87 | reindexing of the group sum by left multiplication (covariance) and inversion (self-adjointness) |
| C86 | invariant of the class and copy lists built by `symmetrizer`; equality with `symmetrize` by counting images |
| C88, C89 | loop invariant of the used points; case analysis |
| C90 | kernel evaluation of the 24 rotations, multiplicativity of signs and of squared matrices for all signed permutations, closure by words of quarter turns |
| C91 | rows of the occupancy table against classes of an equivalence relation, counting |
| C92, C94 | coefficients extended by zero and adjoints to all positions; the mean over the group is reindexed by right multiplication; the Fourier sum is reindexed by the moved positions |
| C93 | fold of the merged table against the loop over the operations (counting equal keys) |
| C95 | `match_sym` (C80); functions transformed at every point, closed under products, checked on generators; kernel evaluation of the 48 signed permutations for the exchange of the atoms |
| C98 | C55 for multiples of the cell; Fourier series of the second Bernoulli polynomial (Mathlib) with a bound of the tail |
| C99 | the array expressions are the adjoint and the normal operator of the first order perturbation; CG decreases its quadratic functional in every pass (invariant subspaces for the defect); C52 for the true derivative; uniqueness of sorted eigenvalues by min-max |
| C100 | the pseudoinverse is a left inverse on independent samples, so one step replaces all eigenvalues; the array of the step is the adjoint of the first order perturbation, C52 for the derivative; loop invariants for the options |
| C101 | as C100, with the overlap at the samples equal to the one at zero for the exact fit; for the batches the scalar step is computed and iterated |
| C102 | block form of affine matrices (`Spec/Affine`): products, inverses, determinants; C03, C17 for generation and `check` |
| C103 | case analysis of the guards, uniqueness of the inverse transpose, C102 |
| C104 | Brillouin zone by distances (`Spec/Zone`); Selling's reduction: for a basis obtuse together with minus its sum seven pairs of planes cut out the zone (induction over the levels of the coefficients); then linear inequalities per point; the point on the planes in the span of their normals is the nearest one |
| C96, C97 | loop invariant of the used points, C94; induction over the list of representations |
| C105 | monadic fold over the parameters as two sums over the neighbours; Euler's formula; derivative rules; C52 for bands |
| C106 | spectral theorem and uniqueness of sorted eigenvalues, induction over the iterations; derivative of simple bands (C52) for the descent |
| C107 | loop invariant over the temperatures (last renewal of the samples); strict monotonicity of thermal averages; C63, C65 |
| C108 | C66 (integrals against the derivative of the Fermi function) with the substitution of energies, C67 per segment, induction over the segments |
| C109 | C47, C63, C64; bounds of piecewise linear curves |
| C110 | integration by parts per segment, telescoping sum split at the sample `mu`; explicit polynomial in the shift for the origin |
| C111 | invariants of the iterated stable sort (equal keys adjacent), grouping of adjacent duplicates; sums over sets of sources |
| C112 | sorted by the last coordinate first means lexicographic order, so the reshaped list is the grid (uniqueness of sorted lists); induction over the axes for the periodic extension |
| C113 | contract of the nearest neighbour search; C09 for the images |
| C114 | case analysis on endings and formats; the arrays of C31 with C30 for the values |
| C115 | Weyl's inequality for hermitian matrices from min-max vectors (Lemmas/Weyl); trace of sums; C75 for `normalize` |
| C116 | induction over the loop with the written files as state; `C114_asym_save_failure`, `C24_add_new`; the contracts of the parameters are met by the example (trivial group, constant fit) |
| C117 | sums over matrix entries, unitarity, `eigh` as parameter with orthonormal vectors; derivative of bands by differentiating `<w, H w>`; the dependence on the vectors by two solvers on `k diag(1, -1)` |
| C118 | lists per band (`flatMap`); areas by the block form of `Q2ᵀ L Q` and the cross product; affine bands for the Newton steps |
| C119 | sorted lists, counting by filters; limit of the Fermi distribution |
| C120 | integrals of `x^(2k) e^x/(1+e^x)^2` by the geometric series, Gamma integrals and the zeta values of Mathlib; integrals of `x^(2k)/(1+e^x)` between partial sums of the alternating series; comparison of the tables by kernel evaluation in `ℚ`; polynomials by linearity |
| C121 | integrals over the samples as linear functionals; contraction of two Levi-Civita symbols |
| C122 | index arithmetic of the flattened grid; induction over the rounds of the Newton loop; polynomials with proved derivatives as witnesses |
| C123 | difference of two values of the series as a sum over neighbours, Cauchy–Schwarz for the Frobenius norm, min-max; nearest grid point by rounding |
| C124 | mixed radix numbers: positions of concatenated indices; bijectivity by induction over the shape |
| C125 | min-max in both directions for overlaps near one; first failing step of the loop |
| C126 | invariant of the placing loops (classes apart, every placed energy on exactly its class); order of sizes; case distinction for the trivial group |
| C127 | explicit coordinates of the twelve vertices; the two generating rotations permute them; sixty words with distinct images of two vertices; an orthogonal matrix that fixes two vertices is the identity |
| C128 | the deviation is zero exactly if all values agree; each value is within the deviation times the root of the number of values |
| C129, C130 | reading words of a known size from a concatenation, induction over the records; reading early by induction over the words with the half word carried along |
| C131 | induction over atoms and species; inverse matrix by `det ≠ 0` |
| C132 | splitting a concatenation of lines at separators, induction over the rows |
| C133 | invariant of the cache over all programs; abstraction of the state to (source of the velocities, hessians present) |
| C134–C137 | induction over the elements with the array as state, round trip through the layout; reshaping by induction over rows; first occurrences of a dictionary |
| C138 | the cut volume of a cube is the mean over its eight halves (telescoping of third powers); sums over pairs; C44, C45, C58 |
| C139, C140 | evaluation of the tables in the kernel, then induction over the list of types; induction over the dictionary with the part already filled in |
| C141, C142 | reader of the format as specification, composition of readers over appended lines, induction over the surfaces; index formula for nested `flatMap` |
| C143 | loop invariant over the sorted indices; counting by sums; induction over the samples |
| C144 | invariant of the ranges (in order, gaps), index lemma for folded `modify`; uniqueness of the shift with error 0 |
| C145 | index formula for nested `flatMap`; characteristic polynomial of a Hermitian matrix; sign of a product by counting |
| C146 | the volume as the measure of a set (Fubini), Lipschitz bound by slices, limit of the formula for different corner values, change of variables (shears and permutations) for the six tetrahedra |
| C147 | the volume as the measure of a set, slices of a strip between two values bounded by their distance over the slope, translation of the cell |
| C148 | line certificates (pieces without comma and line break, key, value), groups found by name, words of a command |
| C149 | lines and words of the model equal those of `Spec/Cards`; induction on the lines and rows |
| C150 | entry by entry; `hsum` of the changed list by induction on the neighbours; `normalize` by `C29_normalize` of the model with the first matrix made hermitian |
| C151 | cell by cell; the cut by the truncated powers of C59; the centre of mass stays in the cell as its distance to a face is a monotone function of the plane offset (mean value theorem); deviation of clamped normals by the triangle inequality |
| C152 | refinement: an invariant between the heap and a list of values with families (parameter arrays never shared, neighbour arrays shared exactly in a family), kept by every statement; corollaries by computation on the list |

## Disagreements between the code and its documentation or expectation

Each is a theorem with a concrete witness or a characterisation of the failing inputs.

* Symmetry: `len` counts operations twice in even dimensions with `-1` in the group (`C05_len_double_counts`); rounding of squared
  norms to two decimals can keep two equivalent points (`C11_reduce_rounding_defect`); odd tensors ignore the inversion
  (`C12_symmetrize_odd_rank_ignores_inversion`); neighbours lost without inversion (`C15_lost_without_inversion`); equality
  fooled by duplicates (`C17_duplicates_defect`); point cloud distance not symmetric (`C18_not_symmetric`); division order and
  division by groups with inversion (`C19_…`); `in` misses mirror subgroups (`C53_contains_incomplete`); space groups: repeated operations
  (`C102_centred_defect`), the two point groups compare unequal (`C102_inversion_defect`), lost flag (`C102_flag_lost`), `check` and `*` raise
  (`C102_translation_defect`), `inversion=True` adds nothing (`C102_inversion_flag_defect`), `transform` outside three dimensions (`C102_transform`).
* Tight binding: duplicates inside one added list are accepted (`C24_duplicates_accepted`); `limit_neighbor_count` with 0 and negative counts
  (`C25_limit_count_…`); energy shift not rigid with overlap (`C27_shift_not_rigid`); `permute` accepts repeated indices
  (`C29_permute_repeated`); `bands_grad_hess` ignores the derivative of the overlap (`C52_hess_ignores_overlap`); `supercell` rejects bases
  of other orientation (`C55_defect_basis`), ignores the overlap (`C55_defect_overlap`), loses superlattice vectors
  (`C55_defect_lost`) and multiplies in cartesian coordinates (`C55_defect_cartesian`);
  `free_electron_model_orthogonal` limits neighbours by length, not by direction (`C98_defect_anisotropic`); `optimize_cg` raises by
  default with fewer samples than neighbours (`C99_precond`), `keep_zeros` masks in the wrong basis (`C99_keep_zeros_defect`);
  `optimize` raises with `train_S=True` (`C101_train_S_defect`), `keep_zeros=True` prevents any fit of a model with zeros on the diagonal
  (`C101_keep_zeros_defect`), and with batches the overlaps belong to other samples (`C101_batch_overlap_defect`).
* TightBindingModel: the constructor raises for every symmetry group with more than one operation and for inversion (`C105_constructor`), `params_complex` is wrong
  or raises (`C105_params_complex`), `set_from_complex` does not check the number of matrices (`C105_set_length`); `copy` raises `TypeError` (two arguments missing);
  `optimize` ignores `k_smpl_weights` (`C106_weights_defect`), applies its normalisation twice, so that the loss it prints can increase for every learning rate (`C106_loss_defect`).
* BandStructureModel: `cos_reduced` with symmetry (`C30_symmetry_defect`); python file format (`C72_python`); `transform` and `+`
  with symmetry (`C74_…_defect`); `supercell` always raises (`C76_supercell`); `optimize(train_k0=False)` changes `f(0)` without `cos_reduced`
  (`C100_train_k0_defect`), `keep_zeros` does not keep the zeros of the model (`C100_keep_zeros_defect`), more batches than samples raise (`C100_errors`).
* Start models: `AsymTightBindingModel.init_from_ref` is not correct at `k = 0` as its comment says (`C115_asym_trace`) and gives a constant model for one band (`C115_asym_flat`);
  `init_tight_binding_from_ref` is wrong at `k = 0` for `cos_reduced=False` (`C115_bs_trace`), and `band_offset > add_bands` gives more bands than asked for (`C115_bs_values`).
* `autofit_asym`: `add_bands_below`/`add_bands_above` raise `ValueError` for two or more reference bands (`C116_added_bands`), one reference band fills the whole first matrix
  (`C116_start_matrix`); a start model that fits exactly raises `ValueError` in the logger (`C116_exact_fit`); a star that is already listed stops the loop (`C116_duplicate`).
* `electron_phonon_coupling`: at degenerate bands the result depends on the eigenvectors that `eigh` happens to return (`C117_degenerate`).
* `fermi_surface_samples`: with `improved_weights` the points of affine bands end at energy 0 (`C118_energy_forgotten`); with `weight_by_gradient` "normalised" weights do not sum up to 1 (`C118_gradient_sum`); the weights are `det(A)` times the k-space area, negative for left-handed lattices (`C118_det`).
* `naive_fermi_energy`: for an insulator the result lies at or above the lowest conduction energy, because the states `i` and `i+1` (counted from zero) are averaged instead of `i-1` and `i` (`C119_fermi_gap`).
* `hall_coefficients(*conductivity_hall_tensor(A))` and `hall_coefficient_metal_cubic(A)` have opposite signs for every isotropic conductor (`C121_sign`); the heat capacity of `KIntegral` depends on the origin of the energies (`C121_heat`).
* `DensityOfStates.bands_range` with `bands_grad_hess` need not contain the energies of the grid (`C122_range_misses`) and depends on the unit of length, because the Newton step in reciprocal coordinates is compared with step sizes in crystal coordinates (`C122_units`).
* `geigh_grad` on single matrices (linalg.py 106): `bands[:, None, :]` raises `IndexError` unless the overlap is one, although the einsums and `eigh_grad` support arrays without leading axes (C125).
* `TightBindingModel.init_from_ref` says "make the model correct for k=0"; for the trivial group, the only one the constructor accepts (`C126_no_symmetry`), it is so exactly if the data have no degeneracy (`C126_exact`): every energy is placed once, the other bands go 0.01 below the lowest, degeneracies above the dimension are dropped (`C126_gamma`).
* `Symmetry.icosahedral` says "The top off-axis vertex is aligned towards the x-axis"; it is aligned towards the y-axis (`C127_defect_axis`).
* `Symmetry.check_symmetry` says "True if the symmetry wasn't broken"; it never applies the inversion (`C128_defect_inversion`). `Symmetry.check_neighbors` says it raises `ValueError` if the positions do not fit; it does for every non-empty list (`C128_check_neighbors`; `zip(self.S)` yields tuples, whose transpose cannot be multiplied).
* `QECrystal.read_charge_density` has no `f.seek(8, 1)` before the loop over the spins and assigns complex numbers to a real array: it returns markers and imaginary parts (`C130_defect_shift`, `C130_defect_real_parts`); `g_smpl` is cartesian though documented as integer vectors. `read_wavefunctions` reshapes to `(igwx, npol)` though the polarisation is the slow index in the file (`C129_defect_polarisation`, the code has a TODO there); a missing k-point number is silently filled with the first file.
* `from_disk` converts the lattice to Angstrom before computing `inv(A) @ position` with the position in bohr, so all fractional positions are too large by 1/0.529; it reads cutoff and smearing width (Hartree) as Rydberg, so both are halved, and never sets `relativistic` (`C131_defect_units`).
* `KIntegral.integrate_df` returns different results before and after an integral with hessians for `AsymTightBindingModel` with a k-dependent overlap, because the cached velocities of `bands_grad_hess` ignore the overlap (`C133_defect_order`).
* `read_projections_order_spilling` raises `ValueError` for every crystal with two or more atoms (`C134_defect_many_atoms`); `read_projections` fills missing k-points with zeros.
* `ExtraCubesSmearing`: the number of states below an energy can be negative and decreasing inside of the range of a band (`C138_defect_negative`).
* `_mass_per_cell`: `element_numbers` is `Z - 1`, so the electron mass misses one electron per atom; the atomic masses contain the electrons already (`C139_defect_electrons`).
* `qe_prepare`: the file name check `re.match(r"[a-zA-Z0-9\.\-]", file)` looks at the first character only, any text after it reaches the shell (`C140_defect_injection`).
* `export_3D_fermi_surface`: surfaces beyond the number of matplotlib colours use undefined materials (`C141_defect_materials`); the coordinates are grid indices, so `k_range` does not appear in the file (`C141_defect_units`).
* `prepare_wannier`: with `grid_size` the order of the k-points differs from that of a full grid calculation (`np.meshgrid` with the default indexing; `C142_defect_order`).
* `KPath.plot_comparison`: for equal functions whose bands meet at the first point the colours are shifted (`C144_defect_degenerate`).
* `plot_3D_fermi_surface_to_ax`: grid indices are divided by `N` instead of `N - 1`, so the surfaces are drawn in the wrong places (`C145_defect_places`); surfaces beyond the number of colours are dropped (`C145_bands`).
* `plot_2D_fermi_surface`: with `accelerate` degenerate bands are not drawn (`C145_defect_degenerate`).
* `scf`, `relax`, `bands`, `nscf`, `nscf_nosym` open the input file before `_crystal()` is evaluated: if a pseudopotential is missing, the previous input file is lost (C148_failing). `nscf`, `nscf_nosym` and `dos` put `./` before the name, `_run` does not: with an absolute path as name another file is written than read (C148_absolute). `nscf` and `nscf_nosym` use the same file.
* `read_dos` expects exactly one blank before `eV` and none behind: otherwise the Fermi energy is lost or `ValueError` is raised (C149_dos_hidden, C149_dos_two_blanks); with one energy or frequency `np.loadtxt` drops an axis (C149_dos_one, C149_dielectric_one).
* `print_model_norms` zips the neighbours with the matrices, so that the sine matrices of a model without `exp` and inversion are never printed (C150_norms_hidden); `randomize` alone gives a model which is not hermitian (C150_hermitian).
* `cube_cut_area_com` clamps small components of the normal to 1e-4 but gives the centre of mass of the clamped plane, so that samples of a surface parallel to an axis leave the surface by up to 1.5e-4 of the gradient (C151_cell, C151_affine); exactness is proved only if nothing is clamped.
* `BandStructureModel.transform` writes into the array `neighbors`, which copies, sums and multiples of a model share (the comment of `copy` admits the link): transforming a copy transforms the original (C152_linked, C152_defect).
* `unit_tetra_cut_volume`: where the function vanishes on the whole tetrahedron `7/15` of it is counted (`C146_flat`); otherwise the error promised in the comment of the source holds (`C146_accuracy`).
* Files: the overlap of an `AsymTightBindingModel` is not saved (`C114_overlap_lost`), JSON loses the symmetry of a `BandStructureModel` (`C114_bs_json_symmetry`), which
  cannot be evaluated after loading in other than three dimensions (`C114_bs_json`), saving as "wannier90" always raises (`C114_bs_save_format`), failed saves leave numpy's
  print options changed (`C114_asym_save_failure`); `read_bands_crystal` without symmetries raises (`C103_no_symmetry_defect`); JSON count mismatch (`C31_mismatch`); `load_hr` hangs on truncated files (`C33_hangs`), ignores degeneracies
  (`C33_degeneracy_ignored`).
* Loss and logger: broadcasting hides an offset that leaves one band (`C34_offset_too_large`), last offset missed (`C35_last_offset_missed`), equal band counts in the
  error histogram (`C57_equal_counts`), a perfect fit raises (`C36_perfect_fit_raises`).
* Named k-points: `hexagonal_points` with the documented distance gives points outside the zone (`C104_hexagonal_defect`), `tetragonal_bc_points` replaces
  the module variable `points` (`C104_tetragonal_state_defect`) and for `c = 1` returns the simple cubic `X` (`C104_tetragonal_cubic_defect`).
* Interpolation: the periodic interpolator raises at its own samples outside of `[-1/2, 1/2]` (`C112_range_defect`) and cannot be made for axes with one point or a
  full period (`C112_periodic`), samples that are no grid are accepted (`C112_not_grid_defect`), surplus rows instead of `nan` (`C113_length_defect`).
* KPath: tuple start raises (`C37_tuple_start_raises`), a failed `to` leaves the name (`C37_failed_call_adds_name`).
* Density of states: energy of a full band at T=0 (`C62_full_band_wrong`), sign in `convolve_ddf` (`C64_flat_wrong`),
  the extrapolated cell volume is no distribution function (`C60_extrapolated_range`), `chemical_potential` keeps old samples (`C107_stale_defect`,
  `C107_stale_wrong`), `NameError` for unsorted temperatures (`C107_unsorted`), `nan` for full or empty bands (`C107_full`), `seebeck` without positive
  temperatures raises where its comment promises zeros (`C108_seebeck_errors`), negative `k_resolved_density` (`C109_cell_negative`), `energy`
  depends on the origin of the energies (`C110_origin`) and is `nan` at the ends of the bands (`C110_edges`).
* Bulk: `KIntegral` for insulators and N=1 (`C69_…`), callable scattering time in Hall tensors (`C71_callable`, `C71_three`),
  `FreeElectrons.bands_grad_hess` returns too many hessians (`C70_hess`), left-handed lattices in `scale_to_density` (`C43_left_handed`).
* CG: the last update can enlarge the residual above the threshold (`C49_threshold_defect`), start vector overwritten (`C49_x0_overwritten`).
* UnitaryRepresentation: duplicates or missing identity among generators (`C79_defect_…`), fewer matrices than operations in `match_sym` (`C80_short_defect`: the symmetry is replaced before
  the IndexError), lists of different length
  (`C79_lengths`), `check` accepts non-unitary matrices (`C81_defect`), sums drop imaginary parts (`C82_defect_complex`), the
  product of representations always raises (`C83_mul_rep`), `symmetrize` without inversion (`C85_defect_no_inversion`),
  `symmetrizer` raises where `symmetrize` works (`C86_defect`), `realize_symmetric_matrices` by default transforms with `U^+` instead of `U`
  (`C88_defect_default`) and ignores the parity of the states (`C88_defect_inversion`), `check_symmetry` tests one point (`C89_defect`).
* HamiltonianSymmetry: inversion symmetry is lost for lists not closed about the bond centres (`C92_defect_inversion`), `symmetrizer`
  with a repeated origin (`C93_defect_duplicate`), the documented phase (`C94_defect_law`), `append_d3` for quarter turns
  (`C95_defect_d3`), the diamond s and p orbitals with inversion (`C95_defect_diamond_s`, `C95_defect_diamond_p`), `copy`
  (`C95_defect_copy`), `apply` with odd orbitals and with inversion (`C96_defect_…`), negative band numbers (`C97_defect_negative`).

Found while reading but not (yet) stated as theorems: `slater_koster.py` cannot be imported; `Symmetry.from_lattice`
always raises `NotImplementedError`.

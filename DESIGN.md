# Design of the formal model of kwant (Lean 4)

The source is /repo at the pinned commit; it is read as text, never run.  `properties.jsonl` lists the properties,
`MANIFEST.json` the theorems, `AXIOMS.md` the axioms of each theorem, `seeded/LOG.jsonl` the tests of the theorems against
wrong programs.

## Trusted base
* Lean 4.33.0's kernel (every module is replayed by the gate).
* Axioms: at most `propext`, `Classical.choice`, `Quot.sound`; `AXIOMS.md` (generated by `tools/gen_axioms.py`) lists them for each
  theorem of the manifest.  No axioms of our own, no `native_decide`, no `bv_decide`.
* Mathlib's definitions that appear in statements (lists, finsets, matrices, ℂ, derivatives, `Circle`, ...).
* The reading of the code: the model is translated by hand.  Every definition cites the file and lines it models and lists its
  simplifications.  Whoever wants to trust a theorem has to compare these definitions with the cited lines, and the statement of
  the theorem and its `Spec` with the English property.
* Python/NumPy/SciPy functions that are not part of kwant are represented by *contracts*: hypotheses such as `LstsqOk`, `QROk`, `EighOk`,
  `ArgSort`, `Choose` on an otherwise arbitrary function.  Each contract is met by a concrete function in an example.

## General simplifications
* Exact arithmetic: floats and complex numbers are integers, rationals, reals, complex numbers or elements of a (star-)ring.  Rounding,
  overflow of C ints (`gint`), and memory exhaustion are not modelled.  Tolerances (`allclose`, `1e-10`) become equality, unless a
  file says otherwise.
* Exceptions are values; because Python exceptions do not roll back mutations, an operation that mutates an object returns
  *both* the new state and the outcome, so "a failing call leaves the builder unchanged" is a theorem, not a convention.
* Python dicts are insertion-ordered association lists; sets are lists without repetition, and their iteration order is an arbitrary
  permutation that the theorems quantify over.
* Loops without an obvious bound get a number of steps (`fuel`); there are termination theorems for them.
* Warnings, deprecated arguments and printing are not modelled.

## What is modelled, and how each property is proved

### Graph (`Verif/Graph`): `graph/core.pyx`: `Graph`, `CGraph`, `CGraph_malloc`
Arrays of the CSR structure are functions on ℕ plus sizes; the counting sort of `Graph.compressed` is a fold over the edges.
C01-C05, C07, C08: invariant of the counting sort over the list of edges; each query is related to the list of added edges.
C06: the bisection; the code is wrong if a node without outgoing edges shares its offset (negation with witness, and the exact condition).
Not modelled: `EdgeIterator` pointers, `Graph.write_dot`, `subgraph`, `scotch.pyx`.

### Symmetry (`Verif/Symmetry`): `builder.py` `Symmetry`, `NoSymmetry`; `lattice.py` `TranslationalSymmetry`
Integer vectors and matrices, floor division, adjugates.  C10-C12.  The numerical part of `add_site_family` (pinv/svd/det in floats) is
represented by its result with the relation the code asserts.

### Builder (`Verif/Builder`): `builder.py` l.241-1769
State: ordered dict of rows, generic over a lawful symmetry.  `Reachable` = all histories of set/del site/hopping, eradicate_dangling,
update, reversed, substituted, fill (also failing ones).  One invariant `WF`, and a refinement to (site value map, hopping value map)
up to the group action; C20-C28 follow from it.  C29: largest subset with degree >= 2.  C30: update.  C31: general keys (recursion with
the order of the code).  C32: `_substitute_params`.  C33: `HoppingKind`.  C34: flood fill (graph reachability, termination, failures).
C35, C36: `attach_lead`.
Not modelled: `Lead` classes other than the data they carry, `fill` with numerical `start`, `expand` of arbitrary user iterators beyond lists.

### Finalization (`Verif/Final`): `builder.py` l.2032-2463
C40-C42, C90, C91 (finite systems), C46, C47, C92 (infinite systems): on top of Graph and Builder: sorted numbering, values read back through
the graph's edge IDs.

### Low-level systems (`Verif/System`): `system.py`, `_system.pyx`
C43 `site_ranges`; C44, C45, C93 `hamiltonian_submatrix` dense/sparse, with the sizes of the allocated arrays; C48 `precalculate`;
C49 broken symmetries.

### Operators (`Verif/Oper`): `operator.pyx`
C50-C52, C56-C58: `where`/`onsite` normalization, `BlockSparseMatrix`, `Density`, `Current`, `Source` with raw pointers (arbitrary memory outside of the
arrays), `bind`, `tocoo`.  `Checks` (C127): exact conditions for `_normalize_onsite` and `_check_ham`.

### Solvers (`Verif/Solver`): `solvers/common.py`
C53-C55 `BlockResult`/`SMatrix`; C94, C95 `_make_linear_sys`, `smatrix`, `greens_function`; C96 `GreensFunction`; C97 `wave_function`, `ldos`; C112 (`Unitary`, `UnitaryEx`) unitarity
of the scattering matrix: the equation of the region is projected on two scattering states, Hermiticity cancels the region, and each lead contributes the
current of its modes.
Modes and self-energies of the leads are given.  The factorization (`mumps`, `scipy.sparse`) is represented by "solves the system".

### Misc (`Verif/Misc`): `_common.py` (C80-C82), `digest.py` (C67)

### Physics (`Verif/Physics`)
`symmetry.py` C60, C68, C69, C100 (matrices over ℂ); `rmt.py` C61, C98; `dispersion.py` C65, C99 (derivatives of eigenvalues are proved from the
implicit function theorem, not assumed).

### Linear algebra (`Verif/Linalg`): `linalg/lll.py`
C70-C72; termination included (`lll` for every c > 4/3).

### Wraparound (`Verif/Wrap`): `wraparound.py` l.58-287
C66: the Bloch sum, for any subset of kept periods.

### Gauge (`Verif/Gauge`): `graph/dijkstra.pyx`, `physics/gauge.py`
C63 Dijkstra (label setting with a heap given by its contract); C62 loops, phases and their products for finite systems; C101 infinite systems;
C64 the argument `average`.  The heap is modelled separately, at the level of its pointers (C141-C143), which discharges the contract `MinPick`.  Not modelled: systems with leads (`_loops_in_composite`), `magnetic_gauge`'s checks.

### Lattices (`Verif/Lattice`): `lattice.py`
`Flood` the generator of `shape` with its two-layer memory, for any set of tags, any iteration order of Python sets and any maps to the
fundamental domain (C102); `Lattice` `Monatomic.__init__`, `n_closest`, `closest`, `pos` (C103) on top of `lll`, `cvp`, `voronoi` of C70-C72;
`Deltas`, `Shape`, `Library`, `Counter` which steps the fill makes (C102); `Wire` (C105); `Family` `add_site_family`, `subgroup`,
`has_subgroup` (C106, C107); `Neighbors`, `NeighborsTerm` `neighbors` (C104).  The singular value decomposition in `add_site_family` enters through "a vector orthogonal to the columns so far".

### Leads (`Verif/Leads`): `physics/leads.py`
`Linsys`, `Bloch` `setup_linsys` in all its branches (C108): solutions of the pencil = Bloch solutions, via a relation `Faithful` that both algorithms
satisfy and that also covers generalized (Schur) evanescent solutions; `SelfEnergy` `StabilizedModes.selfenergy`, Dyson equation (C110) and
current conservation (C111).  `Block` `unified_eigenproblem`, `compute_block_modes`; `BlockProps`, `BlockMain`, `BlockError` (C113): an indefinite current form is conserved by the pencil, a Stein
equation makes the current of decaying modes vanish, and a dimension count gives the numbers of modes; `EigNumEx` constructs ordered generalized Schur decompositions, so that
the contract of the eigenvalue routines can be met; `BlockEx` an example.  `Proper` `phs_symmetrization` and `make_proper_modes` with all branches; `Clusters` the grouping of eigenvalues on the
circle; `Velocity`, `ProperSpec`, `ProperMain` the modes without symmetries (C109); `ModeNumEx`, `ProperEx` that the contracts are satisfiable, an
example, and what depends on uninitialised memory.  LAPACK routines enter by their contracts.
`Modes` `transform_modes`, `modes`, `group_halves`; `ModesSpec` what a lead's modes satisfy (`LeadSpec`); `ModesProps` this specification under symmetries, `ModesJoin` under
direct sums of blocks; `ModesMain`, `ModesThm` the loop over pairs of blocks by an invariant (C114); `ModesEx` an example and three disagreements.
`SymBlock` puts C113 and C156-C159 together: the modes of a block that symmetries map to itself, under the conditions (`Benign`) under which `make_proper_modes` is correct;
`ModesSym` the partners of the modes of a lead without conservation laws (`SymLead`), which C189 needs; `SymBlockError`, `SymLeadEx` when they can be computed, and an example with each of the three
symmetries (`Scatt/SymEx.lean`: a system with such leads).
`LeadSelf` the self-energy end to end (C115): conservation of flux between cells gives that the outgoing wave that continues given amplitudes is unique, and a count of dimensions
that it exists; `LeadSelfEx` consequences and an example.

### Scattering (`Verif/Scatt`): `solvers/common.py` together with `physics/leads.py`
No new code is modelled here; the models of the solvers and of the leads are connected (`Open.toSys`: the modes returned by `modes` become the input of `_make_linear_sys`), and compared
with a specification of the infinite system (`Spec`): `InfWave` (Schrödinger equation in the region and in all cells of all leads), `Asymp` (behaviour at infinity), `IsSmatrix`.
`Leads/FullWave` shows that the stabilized modes parametrize solutions in a lead and computes the current between two of them; `Phys` derives conservation, uniqueness and unitarity from
the specification alone; `Main` shows that a solution of the linear system is a wave of the infinite system (C116); `Regular` that without bound states the linear system is regular and
`smatrix` succeeds; `Ex` has an example.  `Coupling` derives from the modes of one lead a factorization of its broadening (`Γ = W W†`) and a unitary `U` such that the waves with incoming
amplitudes `a` and amplitudes `φ` at the interface have the outgoing amplitudes `W†φ - U a`; `FisherLee` shows with them that a column of the Green's function is the response of the
infinite system to a source and that the transmissions from it are those of the scattering matrix (C117); `FisherLeeEx` that `greens_function` succeeds without bound states, and an example.  `Ldos` (C118): conservation of the current between a wave with a source and the scattering states, together with
the unitarity of the scattering matrix, gives that the sum over scattering states is `-2 Im G`.

### Kernel polynomial method (`Verif/Kpm`): `kpm.py`
`Model`: `_rescale`, `_VectorFactory`, `SpectralDensity.__init__` / `_update_moments_list` / `_calc_moments_list` / `_iteration` / `add_moments` / `add_vectors`, with exceptions and the state left behind by them.  `Moments`, `History`:
invariants of the loops over moments and vectors and of the object; `Main`: C119, with `T_n` of Mathlib.  `Density`: kernels, `_moments`, `energies`, `densities`, `__call__`, `integrate`, with `dct` and `chebval` as the sums they are documented to be; `DensThm`, `Integral`: C120-C122 by orthogonality on the
Chebyshev nodes; `Positive` (C123): the Jackson kernel is an autocorrelation, the Lorentz kernel a positive combination of Fejer kernels, together with the spectral theorem.  `Corr`: `Correlator` with its two spectral densities and the generator that links them, including the state left behind by exceptions;
`CorrThm`, `CorrInt`, `CorrEx` (C124): the invariant that both stay synchronized, the derivatives of the Chebyshev coefficients of the Green's functions, the generating function that fixes which is the retarded one.  `Vectors` (C125): `LocalVectors`,
`RandomVectors` and the orbitals of `where`, with Lebesgue integrals for the mean; `Velocity` (C126): `_velocity`, `fermi_distribution`.

### Continuum Hamiltonians (`Verif/Continuum`): `continuum/discretizer.py`, `gcd` of `continuum/_common.py`
An expression is a sum of words in momenta (with powers) and functions of the position, so that the order of operators is kept; sympy itself (parsing, expansion, printing of functions) is not modelled.  `Model`: `_differentiate`,
`_discretize_summand`, `_discretize_expression`, `discretize_symbolic`; `Spec`: central differences, formal adjoints, independent of the code.  `Dict`, `Words`, `Kernel`: a word in momenta and functions expands into shifted
coefficients, and grouping by shifts keeps the operator; `Thm`, `Sym` C128-C130; `Herm` C131 (the kernel of the adjoint word); `Build` C132 (`build_discretized`: builder values, site positions); `Limit` C133 (convergence
of all derivatives, locally uniformly, by the mean value theorem); `Errors` C134, C135; `Ex` examples.

### Landau levels (`Verif/Continuum/Landau*.lean`): `continuum/landau_levels.py`
`Landau.lean` follows `to_landau_basis`, `_ladder_term`, `_evaluate_ladder_term`, `discretize_landau` and `_builder_value`; the discretization in the normal
direction is the model of the discretizer above.  The specification (`LandauSpec.lean`) has the ladder operators on sequences `ℕ → ℂ` and the two momenta built from
them; the commutator `[k_0,k_1] = -iB` is proved for both signs (C136).  `element_value` gives every matrix element in closed form for every order of the dict of
parts; C138 and C139 turn it into statements about operators on states in the first `N` levels.  Not modelled: sympy's simplification, the merging of summands whose
coefficients cancel, floating point, and the text of the generated functions, except for the binding of the name `B` (C140).

**Fibonacci heap** (`Verif/Fib`, C141-C143).  `Model` has every function of dijkstra.pyx l.183-401 on a memory of nodes with
`parent`, sibling and `children` pointers; NULL dereference, an index outside of `roots_by_rank` and running out of fuel are faults.
`Rep` says which lists of siblings the pointers represent (the `children` pointer may point to any child), `Forest` that these lists
form a heap-ordered forest on the nodes and that `rank` counts the children; every operation is proved to succeed and to keep this
(`Ops`).  `Spec` is an independent queue (a partial map from nodes to values) and its histories.  `Dijkstra` is the search loop on top of the
concrete heap; it is shown to make a run of the abstract Dijkstra algorithm of C63 for some choice among equal minima.
Bounds: for a root of rank r there are at least 2r nodes when it is linked, so that 200 nodes cannot overflow the table of 100
roots; for more nodes the absence of overflow is open (no cascading cuts).  `malloc`/`free`, `unsigned int` and floating point are not modelled.

**Shot noise** (`Verif/Physics/Noise`, C144).  `two_terminal_shotnoise` on the model of the scattering matrix; unitarity gives that the trace
of T(1-T) is the same for all four blocks, and its value from the eigenvalues of the Hermitian matrix.

**Interpolation** (`Verif/Plot`, C145-C148).  `Model` has `_bump`, `_smoothing`, `_optimal_width`, `_interpolate_field`, `interpolate_current`,
`interpolate_density` and `_mask` (plotter.py l.2180-2505, l.2878-2887) in exact real arithmetic.  `Spec` has the convolution as an integral
over the line between two sites.  `Kernel` shows that the closed form of `_smoothing` is this integral (fundamental theorem of calculus off two
points), `Main`, `Thm`, `Density` that the slices contain all grid points where a bump is not zero, `Divergence` differentiates under the
integral, `Norm` integrates the bump over the space (polar coordinates) and `Flux` over planes (Fubini).  Matplotlib and plotly are not modelled.

### Magnetic gauge of systems with leads (C149, C150)
`Gauge/CompositeModel.lean` models `_check_composite_system`, `_extended_scattering_region`, `_interior_links`, `_make_metatree`,
`_spanning_tree_composite`, `_loops_in_composite`, `_previous_phase_composite`, `_peierls_composite`.  `CompositeTree` shows that the forest of the
cut region, the representative links and the links of the patches contain no closed loops but those of the patches, and connect what the
region connects; `CompositeLeads` that the count of the check means that the graph of the leads is a forest, so that gradients on the patches
combine; `CompositePhases` combines this with C62 and C101.  `CompositeCheck` proves the check sound and complete under explicit conditions;
`CompositeExample` has a wire with two leads (one with padding) and the counterexamples.  Not modelled: leads that are not infinite builders.

### Conversion between builders and qsymm models (C151-C153)

Modelled in `Qsymm/Model.lean`: `builder_to_model` (slices, blocks, terms from functions of parameters by probing with 0 and 1,
displacements, Hermitian conjugates) and `model_to_builder` (ranges, the dictionaries of onsites and hoppings, lattice
coordinates, the order in which hoppings overwrite each other, zero onsites).  Models of qsymm are lists of terms with a meaning
(`evalModel`, `evalEntries`); the specification of a builder is `amplitude`, the matrix element between two sites of the
infinite lattice.  `allclose` is equality.  Proof: C151 by evaluating every term (`affine` values are recovered from their
values at 0 and unit vectors) and a sum over cells; C152 by an invariant of the two dictionaries (the accumulated value of a
key is the Fourier component at its displacement) and a fold lemma for overwriting assignments with values that are conjugate
to each other; Hermiticity at every momentum gives conjugate Fourier components by independence of characters.

### Particle-hole symmetrization of modes (C154, C155)

`Leads/Phs.lean`, `PhsCut.lean`, `PhsNum.lean`.  `phs_symmetrization` (leads.py l.247-386) is modelled in `Leads/Proper.lean`; the
pivoted QR and the Schur decomposition enter by their contracts (`ModeNum.PhsOk`), which `PhsNum` shows to be satisfiable for all sizes.  `C154_symmetric`
goes through the code path: unitary overlap matrix, square root by Schur decomposition (class P^2 = 1), or the loop that adds psi and P psi and
projects them out (class P^2 = -1, invariant: the wave functions found so far are orthonormal, paired and closed under P; the rest spans the orthogonal complement).
`C154_error` states the errors in terms of the space only.  C155 is an averaging argument about the largest gap.

### Leads with discrete symmetries (C156 and following)

`SymGood` extends the invariant `Good` of C109 (all modes diagonalize the velocity operator at their momentum and are complete) by the operation that the code performs
with every symmetry: some columns of the wave functions are replaced by images of others, and the columns of `psi` are rotated accordingly (`Good.replace`).  The hypotheses
are that the new columns are states with the velocity and the momentum of those they replace.  A symmetry maps velocity states to velocity states (`VelState.map`), and
counting them (`Good.card_eq`) shows that the sorted lists of momenta and velocities of partners agree (`Sorted.tr_match`).  C156 is stated with a separate specification
`TimeReversed`.  `DiagLead` solves all leads with diagonal matrices, for examples and counterexamples that hold for all numerical routines.

`Steps` splits the loop over momenta in one loop for every step of its body (`runSteps_comp`).  C157: at one momentum, chiral symmetry maps velocities to opposite ones, so that
the sorted velocities are antisymmetric (`IsCluster.rev`); with one speed the replacement is that of `Good.replace`.  `C157_converse` shows that the condition is exact.

`VelGroups`, `Trim`: at the momenta 0 and pi, the modes are grouped by velocity and each group is symmetrized by `phs_symmetrization` (C154).  `Halves` treats both halves of the
sorted modes alike: particle-hole symmetry reverses the order of the momenta other than -pi and 0, so that `positive_k[::-1]` hits the partners if there are no modes at -pi, or
only modes at 0 and -pi.  C158 is stated with a separate specification `ParticleHole`.  `C158_error` characterizes when an error is raised.  C159 combines C156 and C158; `C159_signs`
computes the sign with which the relation holds for outgoing modes: T^2 for momenta other than 0 and pi, and P^2 T^2 at 0 and pi, so that everything is as documented in class BDI
(`C159_bdi`) and not in class DIII (`C159_counterexample`).

### Schur forms (`Verif/Linalg/Schur*.lean`, `GenSchur*.lean`; C160-C165)

Modelled: `convert_r2c_schur`, `order_schur`, `evecs_from_schur` and their generalized
counterparts of `kwant/linalg/decomp_schur.py`, and the parts of `trsen`, `tgsen`, `trevc`, `tgevc`
and `txevc_postprocess` in `lapack.pyx` that are written in Python.  Arrays are functions of two
indices, updates of slices are pointwise updates (lines as cited), the loop over 2x2 blocks is a
fold, the recursion of `order_schur`/`order_gen_schur` has fuel (two is enough, proved).
By contract: the Fortran routines `xTRSEN`, `xTGSEN`, `xGGES` (on 2x2 blocks), `xTREVC`, `xTGEVC`, as
documented by LAPACK: reordering by orthogonal transformations or failure, eigenvectors packed into
one or two columns.  `idTrsen`, `idTgsen`, `exG`, `exX` fulfil the contracts.  Arithmetic is
exact.  Not modelled: copies made by `prepare_for_lapack`, checks of shapes and dtypes, the
complex case of `evecs_from_*` (no bookkeeping there: LAPACK's arrays are returned).

### Analytical self-energy (`Verif/Leads/SquareSelf.lean`; C166)

`square_selfenergy` line by line with real numbers.  The specification does not mention modes: it is the
unique matrix propagating decaying solutions at complex energies (uniqueness proved by conservation
of current), and the limit to the real axis.  The sine transform is proved orthogonal and
to diagonalize the cell.  A hopping of zero (ZeroDivisionError) is excluded.

**C167, C168 (`Verif/Plot/Draw*.lean`).** `sys_leads_sites`, `sys_leads_pos`, `sys_leads_hoppings` and
`sys_leads_hopping_pos` (plotter.py l.434-713) are modelled in both forms (builders; finalized systems, on top of the models
of `finalized()`), with the loops over the leads, `num_lead_cells` read off the last item, `vecs_doms` and the
exceptions. The specification `SitePicture`/`HopPicture` only mentions `site in builder`, `(a, b) in builder`, the cell
of a site and the position function: there is a list of the wanted sites (hoppings in one direction), without repetition,
whose positions are the entries; the slices form a chain. Proof: a general theorem about `collect`/`place` (`picture`), and for each of
the four cases that the list of objects of a lead is a set of representatives at level 0 (`SiteList`, `HopList`), the copies
being the translates. Not modelled: the check that all positions have the same length, `_common` drawing code.

**C169–C173 (`Verif/Solver/Mumps*.lean`).** `MUMPSContext` (`linalg/mumps.py`) with the state of the library instance
(assembled matrix, what is analysed and factored, the parameters `ICNTL(14)` and `ICNTL(20)`, pointer to the sparse right
hand side, `INFOG(1)`), its methods `analyze`, `factor` and `solve`, `assert_fortran_matvec`, and the MUMPS solver's
`options`, `reset_options`, `_solve_linear_sys`.  The library is a parameter with arbitrary answers to analyses and
factorizations; a reported success of a factorization means that back substitution solves the system.  The state after a
history is related to the specification `current`, a fold over the calls and their results, by induction over the
history.  The loop of `factor` is modelled with fuel; `C170_ends` shows that 31 is always enough.  Simplification: that
the memory of a sparse right hand side may have been freed when it is read by a later dense solve is not modelled, it is
taken to be still there.  Not modelled: `schur_complement`, statistics, storage formats.

**C174, C175 (`Verif/Plot/Spectrum.lean`, `BandsPlot.lean`).** `spectrum`, `_generate_spectrum`, the two engine specific functions
and `bands` of `plotter.py`; arrays are flat lists with shapes, the plot is what the plotting library joins.  Proof: position arithmetic in
flat lists (`getElem?_flatten_uniform`); C175 reduces to C65.

**C176–C178 (`Verif/Plot/Map*.lean`, `Percentile.lean`).** `mask_interpolate`, the pictures of `_map_matplotlib` and `_map_plotly`, and `percentile_bound`
over the reals.  `griddata` and `cKDTree.query` by their contracts.  Not modelled: the estimate of the reference length from ten
random sites, warnings, colors, leads in maps.

**C179–C180 (`Verif/Lattice/Names*.lean`).** `SiteFamily`, `Site`, `Monatomic.__init__`, `short_array_repr` and `Polyatomic.__init__`. The canonical text of a family is
modelled character by character (including the line breaks of `repr(array)` that `short_array_repr` removes); the proof reads the text back. Contract: Python's `repr` of
floats and strings is injective, and floats are written without brackets, commas and line breaks.

**C181 (`Verif/Continuum/Lambdify.lean`).** `lambdify`. Expressions are trees; `sympy.lambdify` is modelled by the meaning of the Python function that it compiles.

**C182 (`Verif/Linalg/Fortran*.lean`).** `prepare_for_lapack` and `prepare_for_fortran`, over a memory of buffers with arrays as views (any strides, any sharing).

### Peierls phases (C183, C184; `Gauge/Peierls*.lean`)

`add_peierls_phase` is modelled on top of the models of `Builder` and of finalization: the new builder has as value functions the
old ones (on sites), `wrap_hopping(f)` and `const_hopping` with its dictionary, whose signatures and calls are modelled (unpacking
`a, b, *args, phi`, the `ValueError` of duplicate or improper names).  The theorems compare `hamiltonian(i, j)` of the two finalized
systems (C41, C47) for all parameters that contain `phi`.  Not modelled: `memoize`, the docstring, and `magnetic_gauge` itself
(C62-C64, C101, C149, C150), whose phases enter as arbitrary values of the parameter.

### Conservation laws (C185; `Physics/ConsLaw*.lean`)

`_translate_cons_law` and `discrete_symmetry` on all three formats of a law; the operators `Density(..).tocoo()` are block diagonal matrices over the orbitals
(the sparse format itself is C56).  `eigh` and `eigvalsh` are contracts; that both return the same eigenvalues follows from the characteristic polynomial.
The projectors are lists of columns, as in C100, so that the constructor of `DiscreteSymmetry` of that model can be applied to them.  Not modelled: laws that
are not Hermitian (`eigh` silently ignores the upper triangle; one-orbital values are used as they are).

### Builder.closest (C186; `Lattice/ClosestSite.lean`)
`Builder.closest` (builder.py): the branch without symmetry (scan over the sites with a running minimum), the branch with a
symmetry (the periods of the symmetry reduced with the model of `lll` of C70, the closest vector with the model of `cvp` of C71,
the site shifted with the coefficients translated back into the symmetry's domain, and the same running minimum).  Families of
sites have either a geometry or no `pos`.  Arithmetic is exact; `numpy.linalg.lstsq`, `qr` and `argsort` by the contracts of C70/C71.

### plot_2d_bands (C187; `Wrap/Bands2D*.lean`)
`wraparound.plot_2d_bands`: the checks of the argument, the reciprocal vectors, `lll` and `voronoi` (models of C70, C72), the transformation of the
neighbors as it is written, the box, the grid, `momentum_to_lattice`, `ham`, `outside_bz`, and `plotter.spectrum` (model of C174).  `scipy.spatial.Voronoi` by the contract
that a bounded region is the convex hull of its vertices.  The specification of the Brillouin zone uses only the periods: momenta for which no vector G with
G.a_i in 2 pi Z is closer than zero.

### Symmetries of the scattering matrix (C188, C189; `Scatt/Sym*.lean`, `Scatt/ModeMap.lean`, `Scatt/Onsager.lean`)
No new code is modelled: the theorems are about the scattering matrix of C116, which is what `smatrix` returns.  The specification (`SymMap` in `SymSpec.lean`)
says that `u` (with or without complex conjugation, with or without a sign) maps the Hamiltonian of the region and of all leads to another Hamiltonian on the same
orbitals.  Proof: the symmetry maps waves to waves and modes to combinations of modes of the other lead (`mode_map`; by completeness and orthonormality
of the modes the coefficients form a unitary matrix), and the current between two waves is conserved (C116).
`SymComputed` combines this with the modes that `modes` returns for leads that have been given their symmetries (`Leads/ModesSym.lean`).

### Conservation laws, added cells, order of sites (C190, C191, C192, C194; `Scatt/Conserve.lean`, `Scatt/ConserveBlocks.lean`, `Scatt/AddCell*.lean`, `Scatt/Reorder.lean`)
Again about the scattering matrix of C116.  C190: a conserved quantity maps waves to waves, and multiplies the amplitudes of the modes with their values, so elements
of S between different values vanish; `modes_blocks`, `block_of_number` connect this with `block_nmodes` and the slices of `SMatrix` (C55).  C194: unitarity (C116) summed over the blocks, of which only those with the same value contribute (C190).  C191: the waves of the system with an added
cell are the waves of the original system, shifted by one cell in this lead (`C191_waves`, an equivalence).  C192: renumbered waves.

### Leads given by functions (C195; `Misc/Call.lean`)
Python's binding of the arguments of a call to the parameters of a function (all kinds of parameters, defaults, `*args`, `**kwargs`) is a recursive function `bind`; a function is a signature and a body that
gets the local variables.  `_ensure_signature`, `deprecate_parameter` and the methods of `SelfEnergyLead` and `ModesLead` are modelled on top of it.  Specification: the outcome of the calls
`f(energy, args, params=params)` and `f(energy, args)`.  `self` is bound already; warnings are counted, their text and stack level are not modelled.

### Symbols of `kwant.plot` (C198; `Plot/SiteSpec*.lean`)

Modelled: the site part of `_plot_matplotlib` from the arguments to the collections: `_check_length`, `_make_proper_site_spec`, the default colours by
family, one collection per symbol (`defaultdict`), slicing and fancy indexing of the other arguments, the colour norm, `symbols`, `get_symbol`,
`set_colors`.  Contract: the `k`-th item of a matplotlib collection takes the `k`-th entry of each list, cycled; `to_rgba_array` takes three or four
numbers for one colour.  Specification: a value per site (`valAt`), the documented shapes, and the range of all the numbers; the visible items of all the
collections are a permutation of the sites with these values.  Proof: invariant of the grouping loop (the index lists are a partition of the sites, each with its
symbol), a representation relation for the sliced arguments.  Not modelled: `Path` symbols, plotly, the drawing itself.

### Hoppings and leads in `kwant.plot` (C199; `Plot/LeadSpec.lean`)

Modelled: `_make_proper_hop_spec`, `lines`, the replacement of `None` for the properties of leads, and the loop over the leads, on the model of `symbols` and `set_colors`
of C198.  Specification: for each hopping its colour and width, for each site and hopping of a lead the number of its cell within the range of the colour map.  Not modelled:
the colour maps themselves, the limits of the axes, colour bars.

### The unit of length of `kwant.plot` (C200; `Plot/RefLen.lean`)

Modelled: how `_plot_matplotlib` determines `reflen` from `unit`, the hoppings or the sampled sites (with the transposition and the reshape of the array), real arithmetic.
Proof: the first element of a sorted list that is not below a bound; monotonicity of the square root.

### The SciPy solver (C201; `Solver/SciPy.lean`)

`kwant/solvers/sparse.py` and its callers end to end: the setup of C94/C95, the early return, `factorized` (a parameter with a contract), the loop over the columns with the common buffer `vec`, the
selection of the kept variables, the transposition.  The theorems of C95 and C97, which were about any solution of the linear system, are composed with what this solver returns, and C112 with the array that smatrix returns (`SciPyUnitary.lean`).  Not modelled: sparse
formats, rounding, the warning of UMFPACK (which does not raise) for singular matrices.

### Stream plots (C202; `Plot/Stream.lean`)

Widths and colours of the lines, the palette of 256 colours (real powers), the positions of vectors and pixels, and the arguments for the background.  matplotlib is a contract.

### Output of figures (C203; `Plot/Output.lean`)

The choice of the engine, and for all functions that draw the effects (saving, showing) and the returned value as functions of the options.

### Sparse matrices of the gauge (C204; `Gauge/Sparse.lean`)

`_assign_csr`, `_same_sparsity_structure`, `_add_coo_matrices`, `_shift_diagonally` and `_distance_matrix` on CSR matrices (row pointers, column indices, data) and COO matrices (lists of triples).  Specification: which position stores an element, and sums of the triples of an element.  Proofs: canonical rows are strictly sorted, so that positions are unique and equal sets of columns give equal rows; pointers follow by induction.  Assumed: `tocsr` gives canonical matrices.

### Scalar plots with plotly (C205; `Plot/Scalar.lean`)

`scalarplot` and `_scalarplot_plotly`: transposition, limits, coordinates (exact real arithmetic).  Specification: equidistant sample points, the set of values.  Partial: the coordinates are only right for square fields; the counterexample is proved for every other shape.

### Gauge and local basis (C197; `Scatt/Gauge.lean`)
The Hamiltonian of the scattering region is replaced by V H V† with a unitary V that is a phase at each interface (`GaugeTrans`, with an inverse); waves are mapped to waves, so scattering states to
scattering states.  `C197_gauge`: phases of the orbitals are such a V.

### Schur complements (C196; `Solver/Schur.lean`)
`schur_complement` with MUMPS as parameter: it gets the fields of its structure (`Job`, indices from 1, flat memory for the result), and its contract is the documentation of `ICNTL(19)`.  Specification:
`schurOf`, a formula in Mathlib's matrices, with `schur_eliminates` and `schur_inverse` as checks that it is the right one.  Exact arithmetic.

### Generated value functions (C193; `Continuum/Value*.lean`)

`Value.lean` follows `_builder_value`, `_return_string`, `_assign_symbols` and `monomials` down to the generated Python function: parameters, the line that unpacks the position, the
assignments of intermediate results, the returned expression and the cached matrices, with Python's rules for names (locals hide globals).  The specification evaluates the symbolic
expression directly.  The order in which sympy enumerates the set of applied functions is a parameter of the model, so the theorems hold for every order.

## Disagreements between the code and the property (each is a theorem about the model)
| property | theorem | what happens |
|---|---|---|
| C05 | `C05_doubly_dangling` | negative tail and head: reads out of bounds |
| C06 | `C06_counterexample` | `CGraph.tail` wrong after a node without outgoing edges |
| C32 | `C32_counterexample` | `substituted` looks up constants in a dict: TypeError for unhashable ones |
| C35 | `C35_counterexample` | `attach_lead(origin=...)` may delete sites of the scattering region |
| C36 | `C36_counterexample` | period extension loses parts of the lead that are not connected to the fundamental domain |
| C49 | `C49_counterexample` | attribute `'particle-hole'` misspelt: a broken particle-hole symmetry is still used |
| C50 | `C50_counterexample` | `where > cell_size` off by one |
| C51 | `C51_counterexample` | `and` instead of `or` in the shape check |
| C53 | `C53_counterexample` | operator precedence in the doubly-missing case of `transmission` |
| C56 | `C56_counterexample`, `C56_tocoo_counterexample` | scalar onsite with different numbers of orbitals |
| C57 | `C57_counterexample` | callable onsite stored with the shape of the hopping |
| C63 | `C63_unreachable` | unreachable targets get length 0, and paths are shifted |
| C64 | `C64_counterexample` | `average=False` hard-coded |
| C65 | `C65_degenerate` | velocities at degeneracies are not derivatives |
| C66 | `C66_no_momenta` | `wraparound` of a builder without symmetry loses the parameters of functions |
| C68 | `C68_counterexample` | misplaced parenthesis in the check of the canonical form |
| C80 | `C80_counterexample` | `memoize`: an int equal to an `id` collides |
| C94 | `C94_counterexample` | leads with zero hopping shift the kept variables |
| C99 | `C99_counterexample` | `np.divide(where=)` without `out=`: uninitialised memory |
| C100 | `C100_counterexample` | projectors are not checked to be complete (square) |
| C101 | `C101_counterexample` | unit cells without hoppings inside (one-site chains) raise an exception |
| C102 | `C102_counterexample` | the vectors of the flood fill are multiplied by `transf` instead of its transpose: neighbors are missed for bases that LLL changes |
| C102 | `C102_duplicates` | a site is yielded twice if two start tags are equivalent under the symmetry |
| C108 | `C108_forced` | `stabilization[1]=True` always reduces to a regular problem; the documentation promises a generalized one |
| C109 | `C109_uninitialised` | a group of close eigenvalues whose ends are further apart than the tolerance: no mode is treated, velocities are uninitialised |
| C114 | `C114_zero_block` | with `projectors`, a block without hopping raises `ValueError` although the lead has modes |
| C114 | `C114_tr_order` | modes obtained by time reversal of another block are in the opposite of the documented order |
| C114 | `C114_sign` | after a symmetry that flips the energy, `vecslmbdainv` and the wave functions differ by a sign |
| C119 | `C119_counterexample` | `num_moments=1` raises IndexError |
| C124 | `C124_counterexample` | `Correlator.add_moments` without `accumulate_vectors` (the default) raises after having changed the object, which is useless afterwards |
| C126 | `C126_direction` | `direction > displacements.shape[1]` off by one: IndexError instead of ValueError |
| C133 | `negative_power_dropped` (C135) | negative powers of a momentum are silently treated as 1 |
| C135 | `build_oblique_accepted` | an oblique 1x2 primitive vector is accepted because the comparison broadcasts |
| C137 | `evaluate_error` | a word of seven ladder operators whose value is 0 raises `ValueError` in `sqrt` |
| C138 | `landau_kz_sign` | `discretize_landau("k_z", ...)` is the discretization of `-k_z`: the hopping offset is not negated |
| C139 | `dirac_built`, `dirac_right` | a Dirac Hamiltonian in a negative field gives the Landau levels of the positive field, with the zero mode in the wrong orbital |
| C140 | `field_unbound` | a parameter `muB` in a term without momenta of the plane: NameError for `B` |
| C148 | `density_total_partial` | the interpolated density integrates to (width/2)^(d-1) times the sum of densities |
| C148 | `current_flux_partial` | the flux of the interpolated current is (width/2)^(d-2) times the current |
| C150 | `C150_counterexample_star` | three leads at one site are refused although no loop is closed |
| C150 | `C150_counterexample_pair` | a lead at a single padding site of another one is refused (asymmetric matrix, `nnz // 2`) |
| C150 | `C150_counterexample_circle` | a loop through three leads is accepted (asymmetric matrix, `nnz // 2`) |
| C150 | `C150_counterexample_site` | no interior links: `IndexError` from an empty index array |
| C151 | `C151_nonlinear` | values that are not affine in a parameter are converted silently to a wrong model (`mu**2` becomes `mu`) |
| C152 | `C152_order` | orbitals come back in the order of the sorted sublattices, not of the atoms |
| C153 | `C152_refused` | hopping without displacement between atoms that differ by a lattice vector is refused |
| C156 | `C156_counterexample_speed` | two chains with hoppings 3 and 2 and T = conjugation: the slow outgoing mode is replaced by the partner of the fast incoming one |
| C156 | `C156_counterexample_pi` | helical modes at momenta 0 and pi: the outgoing mode at 0 is replaced by the partner of the incoming mode at pi |
| C157 | `C157_converse`, `C157_counterexample` | chiral symmetry and two speeds at one momentum: the fastest incoming mode is paired with the slowest outgoing one |
| C158 | `C158_counterexample_speed` | particle-hole symmetry and two speeds at one momentum: the mirror position of the fast mode is the slow one |
| C158 | `C158_counterexample_pi` | modes at -pi, 0 and other momenta: the mode at -pi is overwritten by the partner of the mode at pi/2 |
| C158 | `C158_counterexample_odd` | one chain H(k) = 2 sin k, P = conjugation: one mode at k = 0, AssertionError although modes exist |
| C159 | `C159_counterexample` | P^2 = 1, T^2 = -1: outgoing modes satisfy psi(-k) = -P psi(k), and not the documented relation |
| C161 | `C161_counterexample` | order_schur(select, t) with q = None and a separated conjugate pair: AttributeError, although q is documented as optional |
| C163 | `C163_counterexample` | order_gen_schur with only one of q, z (as called in kwant/physics/leads.py l.463) and a separated conjugate pair: ValueError when unpacking |
| C166 | `C166_negative`, `C166_example` | square_selfenergy with negative hopping returns the advanced self-energy, +i instead of -i at the centre of the band |
| C167 | `C167_counterexample` | `sys_leads_pos`/`sys_leads_hopping_pos` of an unfinalized builder that has a lead without attribute `builder` (`SelfEnergyLead`, `ModesLead`) raise `AttributeError`, while `sys_leads_sites` and the finalized forms skip such leads; so `plot` fails before finalization and works after it. |
| C169 | `C169_counterexample_sparse` | `MUMPSContext.solve` with a sparse right hand side sets `icntl[20] = 1` and nothing resets it, so that a later dense right hand side is never read: the old sparse one is solved again (its memory may have been freed).  Reachable through `wave_function` if `options(sparse_rhs=...)` is changed between two calls of it |
| C169 | `C169_counterexample_reuse` | after `factor(..., reuse_analysis=True)` failed, `factored` is still `True`, and `solve` does not look at `infog`: it returns `b` without any error |
| C169, C173 | `C169_counterexample_one`, `C173_counterexample` | `assert_fortran_matvec` was meant to be lenient for matrices of shape (1, 1) but refuses them (`or` in place of `and not`), so linear systems with one unknown cannot be solved by the MUMPS solver |
| C172 | `C172_counterexample` | `options(nrhs=0)`, `options(nrhs=-3)`, `options(nrhs=2.5)` are accepted (the check uses `and`); `options(nrhs=3, ordering="unknown")` raises but has changed `nrhs` |
| C177 | `C177_counterexample_plotly` | `_map_plotly` takes the shape of the picture after transposing it, so that `x` has as many entries as there are rows and `y` as many as there are columns; besides, `linspace` over the range with borders gives positions that are wrong by up to half a pixel |
| C177 | `C177_counterexample_one` | `_map_matplotlib` and `_map_plotly` divide by the number of pixels minus one: a system one site wide with `oversampling=1` gives an extent of `nan` |
| C178 | `C178_counterexample` | `percentile_bound` is documented to capture at least the given percentage of the data; of ten data it may capture eight (for 96 percent), since percentiles are interpolated |
| C179 | `C179_counterexample` | lattices with `norbs=1` and `norbs=1.0`, or with `0.0` and `-0.0` in a vector, are different site families although all their data are equal, since families are compared by the texts of the arguments |
| C180 | `C180_counterexample` | `Polyatomic` with a sequence of fewer names than sites in the basis silently drops the remaining sites (`zip`); the length of `norbs` is checked, that of `name` is not |
| C181 | `C181_counterexample` | `lambdify('A(x) + A(y)')` raises `SyntaxError` (duplicate parameter), and `lambdify('sin(k_x)')` has a parameter `sin` |
| C182 | `C182_counterexample` | `prepare_for_fortran(False, array.array('d', ...))` returns an array in the memory of the argument, which MUMPS then overwrites: `arr is not args[i]` does not mean that `arr` is a copy |
| C184 | `C183_counterexample` | `add_peierls_phase` drops time reversal but copies particle-hole symmetry, which a scalar phase may break: complex conjugation and a purely imaginary hopping (builder.py l.1848-1854) |
| C185 | `C185_counterexample` | 'Conservation law must have integer eigenvalues' is checked with a relative tolerance of 1e-5: from 5e4 on every eigenvalue is accepted, and different ones that round to the same integer are put into one block (builder.py l.2105). |
| C187 | `C187_counterexample` | `plot_2d_bands`: the neighbors in the reciprocal lattice are transformed with `transf` instead of its transpose (wraparound.py l.386; everywhere else `transf.T` is used), so that for periods such as (1, -3), (0, 1) the mask and the box belong to a larger cell than the first Brillouin zone. |
| C193 | `C193_counterexample_const`, `_cache` | parameters named `_const_n` or `_cache_n` are silently mixed up with names of the generated code |
| C193 | `C193_counterexample_matrix` | `discretize` of a matrix with an entry such as `1/(x+1)` raises TypeError, whereas the scalar is accepted |
| C195 | `C195_counterexample` | functions of the old API, `def f(energy, params)` or `def f(energy, args, *params)`, are taken for functions of the new API: TypeError |
| C196 | `C196_counterexample`, `C196_ignored` | `schur_complement` does not look at the error code of MUMPS: uninitialized memory is returned; `ooc` and `pivot_tol` are ignored |
| C198 | `C198_counterexample_builder` | the documented `('p', n, angle)` symbol or an RGB tuple for all the sites raises `TypeError` for every builder |
| C198 | `C198_counterexample_finalized` | finalized systems: an RGB tuple is sliced like an array (one to three sites: colour-mapped numbers; several symbols: `IndexError`); float colours fail if a site has `'no symbol'` |
| C199 | `C199_counterexample` | `site_symbol='no symbol'` is inherited by the leads, whose numeric colours are then refused: `ValueError`; a constant polygon is not inherited; RGB `hop_color` with three hoppings is colour-mapped |
| C200 | `C200_counterexample` | `unit='nn'` without hoppings: the sampled positions are transposed and reshaped into points that are no sites; the unit depends on the origin, and is 0 for a single site (nothing visible) |
| C202 | `C202_counterexample_bgcolor` | `streamplot(bgcolor=...)` calls `Axes.set_axis_bgcolor`, which no supported matplotlib has: AttributeError |
| C202 | `C202_counterexample_image` | the image of `streamplot`/`scalarplot` is displaced by up to half a pixel: the extent of the points is used as that of the pixels |
| C203 | `C203_counterexample` | `streamplot` and `current` return `None` instead of the figure, and output it twice (`_maybe_output_fig` in `_streamplot_matplotlib` and in `streamplot`) |
| C205 | `C205_counterexample` | `_scalarplot_plotly` takes the numbers of coordinates from the field that is already transposed, so that for fields that are not square nearly all values are drawn at wrong places |
| C120 | `C120_counterexample` | `eps >= 2` is accepted and maps the spectrum outside of the interval |

For these properties the manifest says `partial` where the stated property itself fails: the `_partial` theorems carry the exact additional
hypothesis, and the counterexample shows that it cannot be dropped.

## Why the theorems are not empty
Each `Props` file has examples next to the theorems that meet the hypotheses (ladders, squares, spin systems, ...).  `tools/seed.py` edits a
definition of the model in a scratch copy, rebuilds, and reports which theorems fail; `seeded/LOG.jsonl` records the result.

G='Kwant.Graph.'
claim('C01','proved',[G+'C01_outNeighbors'],'')
claim('C02','proved',[G+'C02_inNeighbors',G+'C02_disabled'],'')
claim('C03','proved',[G+'C03_specId_injective',G+'C03_edgeId',G+'C03_surjective',G+'C03_outEdgeIds'],'')
claim('C04','proved',[G+'C04_toList'],'')
claim('C05','partial',[G+'C05_hasEdge',G+'C05_edgeIds',G+'C05_idsOf_increasing',G+'C05_doubly_dangling'],'proved except for a negative tail with a negative head, where first_edge_id/all_edge_ids read out of bounds (C05_doubly_dangling)')
claim('C06','partial',[G+'C06_tail_partial',G+'C06_tail_no_empty_partial',G+'C06_counterexample'],'property is false of the code when a node without outgoing edges precedes the tail: negation with witness + exact characterisation of when the result is right')
claim('C07','proved',[G+'C07_edges',G+'C07_addEdge',G+'C07_numNodes_mono',G+'C07_nodes',G+'C07_setNumNodes',G+'C07_compressed'],'')
claim('C08','proved',[G+'C08_pickle'],'')
K='Kwant.'
claim('C10','proved',[K+'TransSym.C10_lawful',K+'TransSym.C10_actHop',K+'TransSym.C10_position'],'exact integer arithmetic; the numerical construction of the matrices is represented by its result')
claim('C11','proved',[K+'C11_toFd',K+'TransSym.C10_lawful',K+'noSymmetry_lawful'],'')
claim('C12','proved',[K+'TransSym.C12_reversed'],'')
B='Kwant.Builder.'
claim('C20','proved',[B+'C20_wellformed',B+'Reachable.wf'],'histories: set/del site/hopping, eradicate_dangling, update, reversed, substituted, fill (failing ones included)')
claim('C21','proved',[B+'C21_setSite'],'')
claim('C22','proved',[B+'C22_setHop'],'')
claim('C23','proved',[B+'C23_hermitian',B+'C23_get_iff_contains'],'herm_conj on constants is any involution')
claim('C24','proved',[B+'C24_setHop',B+'C24_del'],'')
claim('C25','proved',[B+'C25_delSite'],'')
claim('C26','proved',[B+'C26_delHop'],'')
claim('C27','proved',[B+'C27_enumeration'],'')
claim('C28','proved',[B+'C28_neighbors'],'')
claim('C29','proved',[B+'C29_eradicate'],'')
claim('C30','proved',[B+'C30_update',B+'C30_leads'],'')
claim('C34','proved',[B+'C34_fill',B+'C34_failure',B+'C34_shape',B+'C34_terminates',B+'C34_succeeds'],'start given as sites; iteration order of the active set arbitrary; has_subgroup assumed to mean subgroup')

claim('C31','proved',[B+'C31_expand',B+'C31_leaves',B+'C31_reachable',B+'C31_setSites',B+'C31_setHops'],'')
claim('C32','partial',[B+'C32_substitute',B+'C32_compose',B+'C32_substituted_partial',B+'C32_substituted_collision',B+'C32_substituted_values',B+'C32_counterexample'],'proved when all constant values are hashable; the code raises TypeError for unhashable constants (e.g. numpy arrays): C32_counterexample')
claim('C33','proved',[B+'C33_hoppingKind',B+'C33_hoppingKind_orbit'],'')
claim('C35','partial',[B+'C35_attach',B+'C35_attach_partial',B+'C35_attach_free',B+'C35_counterexample'],'proved without the origin argument; with origin the code may delete original system sites (C35_counterexample)')
claim('C36','partial',[B+'C36_extend_partial',B+'C36_extend_connected_partial',B+'C36_counterexample'],'false for leads whose cells are not all connected to the fundamental domain (witness); proved for the connected part')

F='Kwant.Final.'
claim('C40','proved',[F+'C40_sites'],'')
claim('C41','proved',[F+'C41_hamiltonian',F+'C41_exclusive'],'')
claim('C42','proved',[F+'C42_hermitian'],'')
claim('C46','proved',[F+'C46_layout',F+'C92_succeeds_iff',F+'line_lawful',F+'line_ordInv'],'for symmetries that keep the order of sites (translations do: line_ordInv)')
claim('C47','proved',[F+'C47_hamiltonian',F+'C47_hermitian'],'')
claim('C90','proved',[F+'C90_leads'],'')
claim('C91','proved',[F+'C91_parameters',F+'C91_sufficient'],'finite systems')
claim('C92','proved',[F+'C92_succeeds_iff',F+'line_ordInv'],'')

Y='Kwant.System.'
claim('C43','proved',[Y+'C43_getOrbs',Y+'C43_none'],'')
claim('C44','proved',[Y+'C44_dense',Y+'C44_sparse',Y+'C44_success',Y+'C44_builder',Y+'finite_lawful',Y+'infinite_lawful'],'any star-additive monoid of matrix elements; Hermiticity is only needed for the full-matrix path, and finalized builders have it')
claim('C45','proved',[Y+'C45_hermitian'],'')
claim('C93','proved',[Y+'C93_sparse',Y+'C93_sparseFull'],'full matrix: graphs without loops (finalized builders: finite_lawful, infinite_lawful)')
claim('C48','proved',[Y+'C48_precalculate',Y+'C48_succeeds'],'')
claim('C49','partial',[Y+'C49_ignored_partial',Y+'C49_counterexample'],"false of the code at zero energy: the attribute name 'particle-hole' is misspelt, so a broken particle-hole symmetry is still used (C49_counterexample, for every system); proved for the other symmetries and for nonzero energy")

O='Kwant.Oper.'
claim('C50','partial',[O+'C50_sites',O+'C50_sites_all',O+'C50_hops_partial',O+'C50_counterexample'],'sites: proved; hoppings: the test is `where > cell_size` (off by one), so the inter-cell hopping of every infinite system to site number cell_size is accepted (C50_counterexample)')
claim('C51','partial',[O+'C51_shape_partial',O+'C51_square_partial',O+'C51_counterexample'],'the test uses `and` instead of `or`: a block with one wrong dimension is accepted (C51_counterexample)')
claim('C52','proved',[O+'C52_blocks',O+'C52_succeeds'],'')
claim('C56','partial',[O+'C56_call_partial',O+'C56_act_partial',O+'C56_act_call_partial',O+'C56_sum',O+'C56_tocoo_partial',O+'goodRanges_of_fams',O+'spin_regular',O+'spin_call',O+'C56_counterexample',O+'C56_tocoo_counterexample'],'proved if the single onsite matrix has the size of every site with more than one orbital; false for scalar onsites on sites with fewer (but more than one) orbitals than the largest site (C56_counterexample for every such system), and for tocoo on every smaller site')
claim('C57','partial',[O+'C57_current_partial',O+'C57_source_partial',O+'C57_continuity_partial',O+'C57_antisymmetric',O+'C57_counterexample'],'proved under the same condition, and for callable onsites if the two ends of each hopping have equally many orbitals; false otherwise: the onsite matrix is stored with the shape of the hopping (C57_counterexample)')
claim('C58','proved',[O+'C58_bind',O+'C58_bind_fails'],'')

V='Kwant.Solver.'
claim('C53','partial',[V+'C53_transmission_partial',V+'C53_returns',V+'C53_center_partial',V+'C53_counterexample'],'proved whenever the element is present or one row or column is missing; with both missing the conditional expression binds too weakly and the result is wrong in general (C53_counterexample; C53_center_partial gives the exact difference)')
claim('C54','proved',[V+'C54_conductance',V+'C54_rows',V+'C54_succeeds'],'columns: whenever the matrix is returned; rows: if the transmissions are those of a unitary matrix')
claim('C55','proved',[V+'C55_slice',V+'C55_absent',V+'C55_partition',V+'C55_blocks',V+'C55_block_transmission'],'')
claim('C94','partial',[V+'C94_lists',V+'C94_kept_partial',V+'C94_counterexample',V+'deadSys_ok',V+'live_kept'],'proved if no lead has zero hopping or all leads are requested; false otherwise: leads without hopping shift the numbering of the kept variables (C94_counterexample)')
claim('C95','proved',[V+'C95_scattering',V+'C95_other_blocks',V+'C95_complete',V+'C95_smatrix_partial',V+'C95_greens',V+'live_solves',V+'live_greens',V+'liveSys_ok'],'C95_smatrix_partial puts the solution at the documented places of the scattering matrix, under the restriction of C94')
claim('C96','proved',[V+'C96_conservation',V+'green_example'],'exact arithmetic; the number of channels (eigenvalues of Gamma above a threshold) is a parameter')
claim('C97','proved',[V+'C97_wave_function',V+'C97_ldos'],'')

D='Kwant.Digest.'
claim('C67','proved',[D+'C67_exact',D+'C67_uniform',D+'C67_gauss',D+'C67_fair'],'the md5 digest is an arbitrary byte string')
M='Kwant.Common.'
claim('C80','partial',[M+'C80_memoize_partial',M+'key_hashable',M+'C80_counterexample'],'proved if calls with the same key have the same result (in particular for hashable arguments); an integer equal to the id of an earlier unhashable argument collides with it (C80_counterexample)')
claim('C81','proved',[M+'C81_getParameters'],'')
claim('C82','proved',[M+'C82_interleave'],'')
X='Kwant.DiscSym.'
claim('C60','proved',[X+'C60_accepted',X+'C60_exact',X+'C60_exact_few'],'exact arithmetic; symmetries as operators on wave functions')
claim('C68','partial',[X+'C68_canonical_partial',X+'C68_counterexample'],'the absolute value is taken of the comparison instead of the entries: negative and imaginary blocks are not seen (C68_counterexample)')
claim('C69','proved',[X+'C69_validate'],'exact arithmetic')
claim('C100','partial',[X+'C100_projectors_partial',X+'C100_accepts',X+'C100_counterexample'],'the constructor only checks that the sum of P P^+ is the identity: proved if there are n columns, false otherwise (C100_counterexample)')
T='Kwant.Rmt.'
claim('C61','proved',[T+'C61_gaussian',T+'C61_complete'],'exact arithmetic; the random arrays are arbitrary')
claim('C98','proved',[T+'C98_circular',T+'C98_charge',T+'C98_charge_DIII',T+'pfaffian_unique',T+'C98_returns'],'exact arithmetic; np.linalg.qr by its contract; the Pfaffian of class DIII is specified by Pf(B^T J B) = det B, which is proved to be well defined; for n = 1 in class D the swap raises an IndexError')
L='Kwant.LLL.'; Q='Kwant.Cvp.'; W='Kwant.Voronoi.'
claim('C70','proved',[L+'C70_lll',L+'C70_terminates'],'exact arithmetic; np.linalg.lstsq by its contract; the result need not be size-reduced, which the code does not promise')
claim('C71','proved',[Q+'C71_closest',Q+'C71_terminates',Q+'C71_groups','Kwant.Lat.C71_groups_terminates'],'exact arithmetic; lstsq and argsort by their contracts; with group_by_length the search ends if there are n distances separated by more than the tolerance')
claim('C72','proved',[W+'C72_voronoi',W+'C72_reduced',W+'C72_irredundant',W+'C72_terminates'],'exact arithmetic; exact set of faces for rtol=0, irredundancy for every rtol >= 0')
N_='Kwant.Bands.'
claim('C65','proved',[N_+'C65_energies',N_+'C65_velocities',N_+'C65_degenerate'],'exact arithmetic; np.linalg.eigh/eigvalsh by their contracts; C65_degenerate shows that the restriction to non-degenerate bands is necessary')
claim('C99','partial',[N_+'C99_curvatures_partial',N_+'C99_counterexample'],'np.divide is called with where= but without out=: the diagonal of ediff is uninitialised memory g, and the result is the second derivative minus 2 g v^2 (C99_counterexample)')
P_='Kwant.Wrap.'
claim('C66','proved',[P_+'C66_bloch',P_+'C66_no_momenta'],'for keep=None and any keep; the value functions must respect the symmetry of the builder (Periodic) and there must be at least one momentum (C66_no_momenta: for NoSymmetry the parameters of functions are lost)')
DJ='Kwant.Dijkstra.'
claim('C63','proved',[DJ+'C63_dijkstra',DJ+'C63_links',DJ+'C63_predecessors',DJ+'C63_unreachable'],'exact arithmetic; remove_min of the heap by its contract (returns a node of minimal value); C63_unreachable: an unreachable target gets length 0 and its path is left out, shifting the others')
GA='Kwant.Gauge.'
claim('C62','proved',[GA+'C62_loops',GA+'C62_finite',GA+'C62_gauge',GA+'C62_closed',GA+'C62_constant'],'finite systems without leads; exact arithmetic; for callable fields the existence of a vector potential for the integral is a hypothesis (HasPotential), for constant fields it is proved')
claim('C101','proved',[GA+'C101_gauge',GA+'C101_closed',GA+'C101_constant',GA+'C101_translation',GA+'C101_exception',GA+'C101_counterexample'],'exact arithmetic; the layout of the sites of a finalized infinite system as in C46; C101_exception: exactly when an exception is raised; C101_counterexample: a chain of one site per unit cell is refused although its unit cell is connected (np.array([]).transpose() cannot be unpacked)')
claim('C64','partial',[GA+'C64_partial',GA+'C64_counterexample'],'fails in the code: line 1033 of gauge.py passes average=False whatever the argument (C64_counterexample)')
SH='Kwant.Shape.'; LT='Kwant.Lat.'
claim('C102','partial',[SH+'C102_rounds',SH+'C102_shape',SH+'C102_exception',SH+'C102_terminates',SH+'C102_nodup',SH+'C102_duplicates',LT+'C102_lattice',LT+'C102_fd',LT+'C102_everything',LT+'C102_deltas_partial',LT+'C102_generate',LT+'C102_square',LT+'C102_triangular',LT+'C102_counterexample'],'everything is proved relative to the set of steps `voronoi` that the lattice computes; that these are all the steps to neighboring Voronoi cells is proved for reduced primitive vectors (all the lattices of kwant.lattice), and is false of the code in general (C102_counterexample: voronoi is multiplied by transf instead of its transpose). Sites can be yielded twice if two start tags have the same tag in the fundamental domain (C102_duplicates), and only then (C102_nodup). All sublattices have the same fundamental domain of tags.')
claim('C103','proved',[LT+'C103_init',LT+'C103_nClosest',LT+'C103_closest',LT+'C103_terminates',LT+'C103_pos_injective',LT+'C103_roundtrip'],'exact arithmetic; numpy routines by their contracts (NumOk)')
claim('C105','proved',[SH+'C105_symmetric',LT+'C105_cylinder',LT+'C105_invariant',LT+'C105_wire'],'relative to the steps of the flood fill (see C102)')
claim('C106','proved',[LT+'C106_hasSubgroup',LT+'C106_subgroup',LT+'C106_subSym'],'exact arithmetic (np.allclose is equality)')
claim('C107','proved',[LT+'C107_outcome',LT+'C107_succeeds',LT+'C107_data',LT+'C107_act'],'exact arithmetic')
claim('C104','proved',[LT+'C104_neighbors',LT+'C104_once',LT+'C104_terminates',LT+'C104_total'],'exact arithmetic; C104_total has no hypothesis about distances (it provides the tolerance)')

LD='Kwant.Leads.'
claim('C108','proved',[LD+'C108_bloch',LD+'C108_columns',LD+'C108_forced'],'exact arithmetic; svd, lu_solve, gecon, inv by their contracts; the dropped singular values are zero (CutExact); with stabilization[1]=True the code does the opposite of what is documented (C108_forced) and the equivalence needs NoInfinite')
claim('C110','proved',[LD+'C110_dyson',LD+'C110_green'],'the outgoing modes enter by the contract of the eigenvalue solver (Outgoing) and must be a basis; exact arithmetic')
claim('C111','proved',[LD+'C111_broadening',LD+'C111_posSemidef'],'as C110; unit current of the modes is the hypothesis UnitCurrent, provided by C109')
claim('C109','proved',[LD+'C109_modes',LD+'C109_error',LD+'C109_current',LD+'C109_initialised',LD+'C109_uninitialised',LD+'C109_example',LD+'velK_deriv'],'eigenvalues closer than the tolerance must be equal (Separated); C109_uninitialised shows that without this the velocities returned may be uninitialised memory. The documentation promises an order by |v| at equal momentum, the code sorts by v. qr, eigh, solve, argsort by their contracts, which exactNum_ok shows to be satisfiable.')
claim('C112','proved',[V+'C112_flux',V+'C112_unitary',V+'C112_sum_rule',V+'C112_example'],'exact arithmetic; the sparse solver by its contract (the linear system is solved); the current of the modes is the hypothesis CurrentOk, see C113')
claim('C113','proved',[LD+'C113_block',LD+'C113_block_sym',LD+'C113_error',LD+'C113_error_sym',LD+'C113_example'],'C113_block_sym: blocks that discrete symmetries map to themselves, under the conditions (Benign) of C156-C159, which are necessary; errors: C113_error without such symmetries, C113_error_sym with them; exact arithmetic; (generalized) Schur decompositions, their ordering and eigenvectors by their contract, which exactEig_ok shows to be satisfiable for all matrices; different eigenvalues are further apart than the tolerances (WellSeparated)')
claim('C114','proved',[LD+'C114_modes',LD+'C114_error',LD+'C114_sym_ok',LD+'C114_example',LD+'C114_zero_block',LD+'C114_tr_order',LD+'C114_sign'],'symmetries may relate different blocks, or map a block to itself under the conditions of C156-C159 (Benign), which are necessary; hypotheses of C113 for the lead. Observations about the code: a block without hopping makes modes fail (C114_zero_block); modes obtained by time reversal are in the opposite of the documented order (C114_tr_order), the documented order is proved when no block is transformed; for symmetries that flip the energy the stabilized modes and the wave functions differ by a sign (C114_sign, the sign s of the specification)')
claim('C115','proved',[LD+'C115_modes',LD+'C115_selfenergy',LD+'C115_unique',LD+'C115_necessary',LD+'C115_dyson',LD+'C115_example'],'end to end from the lead to the self-energy, hypotheses of C114 about the lead; that there is no surface state is necessary (C115_necessary); exact arithmetic, la.solve by its contract')

SC='Kwant.Scatt.'
claim('C116','proved',[SC+'C116_smatrix',SC+'C116_unique',SC+'C116_unitary',SC+'C116_regular',SC+'C116_succeeds',SC+'C116_transmission',SC+'C116_example'],'end to end from the Hamiltonians of the system and the leads; hypotheses of C114 about the leads (LeadsOk), leads with nonzero hopping when only some outgoing leads are requested (see C94); transmission with one of the two leads requested (see C53); exact arithmetic, the sparse solver by its contract')
claim('C117','proved',[SC+'C117_response',SC+'C117_unique',SC+'C117_fisher_lee',SC+'C117_exists',SC+'C117_succeeds',SC+'C117_example'],'the self-energies by their specification (C115 shows that the code computes them); the eigenvalues of Gamma exactly, with a threshold below all positive ones; exact arithmetic, the sparse solver by its contract')
claim('C118','proved',[SC+'C118_wave_function',SC+'C118_unique',SC+'C118_ldos',SC+'C118_response',SC+'C118_example'],'end to end; the modes of the leads by C114; exact arithmetic, the sparse solver by its contract')

KP='Kwant.Kpm.'
claim('C119','proved',[KP+'C119_moments_dos',KP+'C119_moments_op',KP+'C119_calls',KP+'C119_history',KP+'C119_init',KP+'C119_counterexample',KP+'C119_example'],'exact arithmetic; the eigenvalue solver that finds the bounds is not modelled (bounds given). C119_counterexample: num_moments=1 is always refused with an IndexError. add_moments(energy_resolution=...) adds the total number of moments needed instead of the missing ones.')
claim('C120','proved',[KP+'C120_rescale',KP+'C120_refused',KP+'C120_again',KP+'C120_counterexample'],'bounds given, or computed by eigsh within its tolerance; C120_counterexample: eps >= 2 is not refused')
claim('C121','proved',[KP+'C121_energies',KP+'C121_densities'],'exact arithmetic; dct and chebval by their documentation')
claim('C122','proved',[KP+'C122_integrate_dos',KP+'C122_integrate_op',KP+'C122_trace',KP+'C122_total',KP+'C122_kernel',KP+'C122_example'],'exact arithmetic')
claim('C123','proved',[KP+'C123_positive',KP+'C123_densities',KP+'C123_counterexample'],'exact arithmetic; C123_counterexample: without a kernel the density can be negative (and the hypotheses are met by an example)')

claim('C127','proved',['Kwant.Oper.'+x for x in ('C127_dict','C127_single','C127_hopping','C127_onsite_block')],'exact comparison in place of the tolerance of _is_herm_conj; the shape check of Hamiltonian blocks itself is C51')

claim('C124','proved',[KP+x for x in ('C124_moments','C124_trace','C124_calls','C124_call','C124_retarded','C124_init','C124_example','C124_counterexample')],'exact arithmetic, 0 < eps < 2; simpson is a parameter that depends on the values at the sampling points only. C124_counterexample: without accumulate_vectors (the default) add_moments raises half-way and leaves an object on which everything fails. The docstring of _build_integral_factor has m and n of Gamma exchanged with respect to the code; the code agrees with the formula in the docstring of conductivity (C124_retarded fixes the sign).')
claim('C125','proved',[KP+x for x in ('C125_orbitals','C125_local','C125_ldos','C125_all','C125_random','C125_random_mean')],'exact arithmetic; where normalized to existing sites (C50); random numbers ideal')
claim('C126','proved',[KP+x for x in ('C126_velocity','C126_ehrenfest','C126_positions','C126_direction','C126_fermi','C126_example')],'exact complex arithmetic; C126_direction: for the first direction that does not exist the check is off by one and an IndexError results')

CT='Kwant.Continuum.'
claim('C128','proved',[CT+x for x in ('discretize_operator','expression_spec')],'expressions are sums of words in momenta, functions of position and constants (sympy and its expansion are not modelled); coordinates without duplicates, which the code does not check')
claim('C129','proved',[CT+x for x in ('discretize_offsets','discretize_onsite')],'hoppings whose value is the zero expression are kept (the code does too)')
claim('C130','proved',[CT+x for x in ('wanted_spec','kept_hoppings','firstPos_neg')],'sorted by its contract')
claim('C131','proved',[CT+x for x in ('discretize_hermitian','exRashba_hermitian','exKAK_hermitian','kAk_hopping')],'real parameters')
claim('C132','proved',[CT+x for x in ('build_operator','build_hermitian','build_element','discretize_ok','build_scalar','build_lattice')],'exact arithmetic; the evaluation of the generated functions is by the meaning of the expressions')
claim('C133','proved',[CT+x for x in ('continuum_limit','exKAK_smooth')],'exact arithmetic')
claim('C134','proved',[CT+x for x in ('dispersion','dispersion_square')],'exact arithmetic')
claim('C135','proved',[CT+x for x in ('symbolic_reserved','coords_default','coords_explicit','build_scalar','build_lattice','build_refused','build_oblique_accepted','negative_power_dropped')],'Observations: coords is tested with a substring test, so that "xy" passes; duplicates in coords are not refused; the 1x2 primitive vector [[1,1]] is accepted for one coordinate because the comparison broadcasts (build_oblique_accepted); negative powers of momenta are silently treated as 1 (negative_power_dropped)')

claim('C136','proved',[CT+x for x in ('landau_substituted','landau_commutator','ladder_commutator','evaluate_ladder_term','ladder_net')],'exact square roots')
claim('C137','proved',[CT+x for x in ('landau_evaluates','evaluate_no_error','evaluate_error')],'evaluate_error: (a^dagger)^2 a a^dagger a^3 on level 1 raises although the value is 0')
claim('C138','partial',[CT+x for x in ('landau_operator_partial','landau_operator_transposed','landau_kz_sign','exLandau_hermitian','exLandau_symmetric')],'The property fails for Hamiltonians that are odd in the third momentum: hopping offsets are not negated, unlike in build_discretized, so that k_z becomes -k_z (landau_operator_transposed says exactly what is built, landau_kz_sign is the counterexample).  Proved in full for summands that are symmetric in the normal direction.  Expressions and sympy as for C128')
claim('C139','partial',[CT+x for x in ('landau_hermitian','landau_operator_negative','landau_negative_one_orbital_partial','landau_linear_sign','dirac_right','dirac_built')],'Hermiticity proved in full.  With one orbital a negative field gives the complex conjugate of the right Hamiltonian (same energies).  With several orbitals the property fails: the order of the momenta is reversed but the orbitals are not transposed; a Dirac Hamiltonian does not depend on the sign of the field (landau_linear_sign, dirac_built against dirac_right)')
claim('C140','partial',[CT+x for x in ('momenta_accepted','normal_is_third','field_unbound')],'momenta_accepted and normal_is_third in full.  The last clause fails for parameters whose name contains B, such as muB: the name B is then not bound (field_unbound says exactly when); two equal momenta are accepted')

FB='Kwant.Fib.'
claim('C141','partial',[FB+'fib_no_fault_partial'],'No NULL pointer and no endless loop for any number of nodes.  The table of roots is proved not to overflow for heaps of up to 200 nodes; for more nodes this is open: without cascading cuts a rank is not bounded by the logarithm of the number of nodes')
claim('C142','proved',[FB+'fib_min'],'pointer-level model of the heap; exact values')
claim('C143','partial',[FB+'dijkstraF_spec_partial'],'In full up to 200 nodes; for more nodes unless roots_by_rank overflows, see C141')

claim('C144','proved',['Kwant.Noise.'+x for x in ('shotNoise_value','shotNoise_bounds','shotNoise_refused')],'exact arithmetic')
PL='Kwant.Plot.'
claim('C145','proved',[PL+x for x in ('interpolateCurrent_value','interpolateCurrent_succeeds','interpolateCurrent_border','currentGrid_facts','smoothCurrent_linear','interpolateCurrent_width','interpolate_refused')],'exact arithmetic.  The documentation says four times the shortest hopping; hoppings shorter than a thousandth of the longest are not counted')
claim('C146','proved',[PL+x for x in ('interpolateDensity_value','interpolateDensity_border','interpolateDensity_succeeds','densityGrid_facts','masked_zero','interpolateDensity_width','interpolate_refused')],'exact arithmetic; the k-d tree by its contract')
claim('C147','proved',[PL+x for x in ('smoothCurrent_divergence','smoothCurrent_conserved','lineField_divergence')],'about the function that is sampled on the grid, see C145')
claim('C148','partial',[PL+x for x in ('bump_integral','density_total_partial','current_flux_partial','current_flux_2d')],'The constants of the code are right for bumps of radius 1, but the field is scaled with the first power of 2/width in all dimensions.  The density is normalized in one dimension only (too large by the power d-1 of width/2), the current in two dimensions only (too large by the power d-2 of width/2): both theorems give the exact factor.  The test of the density checks only the slope of an error and has a wrong formula for the area')

GA2='Kwant.Gauge.'
claim('C149','proved',[GA2+x for x in ('C149_gauge','C149_closed','C149_constant','C149_found','C149_fields','wire_phase')],'exact arithmetic; csgraph.connected_components and minimum_spanning_tree by their contracts; finalized infinite leads')
claim('C150','partial',[GA2+x for x in ('C150_sound_partial','C150_complete_partial','C150_exceptions','C150_counterexample_star','C150_counterexample_pair','C150_counterexample_circle','C150_counterexample_site','wire_accepted')],'Sound if patches of different leads are not adjacent, complete if moreover the patches are connected and no site is at three patches.  Each condition is needed: three leads at one site are refused, a lead at a single padding site of another one is refused, a loop through three leads one of which starts at the padding of another one is accepted, and a region without interior hoppings raises an IndexError')

QS='Kwant.Qsymm.'
claim('C151','proved',[QS+x for x in ('C151_elements','C151_wave','C151_succeeds','C151_projection','C151_nonlinear')],'exact arithmetic (allclose is equality), real parameters; qsymm and sympy are modelled by the meaning of terms.  C151_nonlinear: a value that is not affine in a parameter is converted without an error to a wrong model')
claim('C152','proved',[QS+x for x in ('C152_amplitude','C152_hermitian','C152_roundtrip','C152_same','C152_order','chain_roundtrip')],'exact arithmetic; the coefficients by their meaning.  C152_order: the order of orbitals is not kept if the sublattices are sorted differently from the atoms')
claim('C153','partial',[QS+x for x in ('C152_succeeds','C152_refused')],'C152_succeeds gives the exact condition.  It differs from the property for terms without displacement between atoms whose coordinates differ by a lattice vector: these are refused although they are hoppings of the lattice (C152_refused)')

claim('C154','proved',[LD+x for x in ('C154_symmetric','C154_error','phsPlus_example','phsMinus_example')],'exact arithmetic: allclose is equality; QR and Schur decompositions by their contracts, shown to be satisfiable (exactNumP_phs)')
claim('C155','proved',[LD+x for x in ('C155_cut','C155_roots')],'exact arithmetic')
claim('C156','partial',[LD+x for x in ('C156_modes_partial','C156_error','C156_order','C156_example','C156_counterexample_speed','C156_counterexample_pi')],'Proved if at each momentum all modes of the same direction are equally fast and modes at momentum pi do not coexist with others.  Both conditions are needed, the property fails without them: degenerate momenta with different velocities are paired in the wrong order (velocities of outgoing modes are sorted in ascending order, instead of descending), and modes at -pi are paired with modes at 0; the returned modes are then no solutions with the stated velocities')
claim('C157','partial',[LD+x for x in ('C157_modes_partial','C157_error','C157_converse','C157_example','C157_counterexample')],'Proved if at each momentum all modes of the same direction are equally fast.  C157_converse: otherwise the returned modes are never proper modes, since the fastest incoming mode is paired with the slowest outgoing one at the same momentum; C157_counterexample is a lead with four chains')
claim('C158','partial',[LD+x for x in ('C158_modes_partial','C158_error','C158_order','C158_example_plus','C158_example_minus','C158_counterexample_speed','C158_counterexample_pi','C158_counterexample_odd')],'The error condition is proved in full.  The relations are proved if, at each momentum other than 0 and pi, all modes of the same direction are equally fast, and modes at pi only coexist with modes at 0.  Both conditions are needed, the property fails without them: partners are looked up at the mirror position, which is a mode with another velocity or the mode at -pi.  C158_counterexample_odd: a single mode at momentum 0 raises an AssertionError even if P^2 = 1')
claim('C159','partial',[LD+x for x in ('C159_modes_partial','C159_signs','C159_bdi','C159_example','C159_counterexample')],'Proved under the conditions of C156, with the sign in the relation for the outgoing modes, which is that of T^2 (P^2 T^2 at the momenta 0 and pi).  The documented relation thus holds if P^2 = T^2 = 1 (C159_bdi) and fails if P^2 = 1, T^2 = -1 (C159_counterexample)')

SC='Kwant.Schur.'
claim('C160','proved',[SC+'C160_convert',SC+'C160_unchanged'],'exact arithmetic; real Schur forms in the canonical form that LAPACK documents')
claim('C161','partial',[SC+x for x in ('C161_order','C161_counterexample','C161_example')],'Proved in full if q is given.  With q = None, which is documented, a selection that separates a pair always raises AttributeError (C161_counterexample)')
claim('C162','proved',[SC+x for x in ('C162_convert','C162_unchanged','C162_example')],'exact arithmetic; gges and tgsen by their documented contracts, shown to be satisfiable')
claim('C163','partial',[SC+x for x in ('C163_order_partial','C163_counterexample','C163_example')],'Proved in full if q and z are given or no pair is separated.  Otherwise, with q or z None (as in kwant.physics.leads), the function always raises ValueError or LinAlgError (C163_counterexample)')
claim('C164','proved',[SC+x for x in ('C164_evecs','C164_example')],'exact arithmetic; trevc by its documented contract (packing of pairs in two columns), shown to be satisfiable')
claim('C165','proved',[SC+x for x in ('C165_evecs','C165_example')],'exact arithmetic; tgevc by its documented contract, shown to be satisfiable')

claim('C166','proved',['Kwant.SquareSelf.'+x for x in ('C166_unique','C166_retarded','C166_equation','C166_negative','C166_example')],'exact arithmetic.  C166_negative: for negative hopping, which is not excluded by the documentation, the function returns the advanced self-energy')

claim("C167", "proved", ["Kwant.Draw.C167_builder", "Kwant.Draw.C167_finalized", "Kwant.Draw.C167_example", "Kwant.Draw.C167_example_finalized", "Kwant.Draw.C167_no_builder", "Kwant.Draw.C167_counterexample"],
  "Positions are elements of any abelian group, with the law that a lead's translations move positions by its period. C167_no_builder, C167_counterexample: for an unfinalized builder with a lead that has no attribute builder sys_leads_pos raises AttributeError, although sys_leads_sites skips such leads.")
claim("C168", "proved", ["Kwant.Draw.C168_builder", "Kwant.Draw.C168_finalized", "Kwant.Draw.C167_example", "Kwant.Draw.C167_example_finalized"],
  "As C167.")

MU="Kwant.Mumps."
claim("C169", "partial", [MU+x for x in ("C169_solve_partial","C169_example","C169_counterexample_sparse","C169_counterexample_reuse","C169_counterexample_one")],
  "Proved for all histories in which no factorization with reuse_analysis=True failed, for sparse right hand sides, and for dense ones if no sparse one was solved before, except for right hand sides of shape (1, 1).  The property fails in each of the excluded cases: icntl[20] is never reset after a sparse right hand side, so that a dense one is not read at all (C169_counterexample_sparse); after a failed factorization that reuses the analysis the context still counts as factored and solve returns b (C169_counterexample_reuse); assert_fortran_matvec refuses all matrices of shape (1, 1) (C169_counterexample_one)")
claim("C170", "proved", [MU+x for x in ("C170_ends","C170_result","C169_example")], "arbitrary answers of MUMPS; ICNTL is an array of 32 bit integers, and ICNTL(14) starts at 20; C169_example has a history in which memory was not sufficient at first")
claim("C171", "proved", [MU+"C171_restore"], "")
claim("C172", "partial", [MU+"C172_partial", MU+"C172_counterexample"],
  "Positive integers are accepted, fractions below 1 and unknown orderings are refused, and a refused call can only change nrhs.  The property fails otherwise: the test uses `and` in place of `or`, so that zero, negative numbers and fractions above 1 are accepted, and nrhs is changed even if the ordering is then refused (C172_counterexample)")
claim("C173", "partial", [MU+x for x in ("C173_solve_partial","C173_example","C173_counterexample")],
  "Proved for matrices with at least two rows, and for dense right hand sides if sparse_rhs was not used with the factorization before; it fails in the excluded cases (C173_counterexample), see C169")

claim("C174","proved",["Kwant.Spectrum."+x for x in ("C174_curves","C174_surfaces","C174_succeeds","C174_example")],"the names of the two varied parameters are different; the plotting libraries by the meaning of their arguments")
claim("C175","proved",["Kwant.BandsPlot.C175_bands","Kwant.BandsPlot.C175_momenta","Kwant.Bands.C65_energies"],"exact arithmetic, contracts as for C65 (shown to be satisfiable there)")
MP="Kwant.MapPlot."
claim("C176","proved",[MP+x for x in ("C176_square","C176_one","C176_mask","C176_corners","C176_example")],"exact arithmetic; griddata and cKDTree.query by their contracts, shown to be satisfiable; max is the position of the last pixel in directions with more than one pixel")
claim("C177","partial",[MP+x for x in ("C177_matplotlib_partial","C177_counterexample_one","C177_counterexample_plotly","C177_example_one","C176_example")],"Proved for matplotlib and pictures with at least two pixels in each direction.  The property fails otherwise: the border is divided by zero for pictures one pixel wide or high (C177_counterexample_one, C177_example_one); with plotly the numbers of columns and rows are exchanged and only a column in the middle is at its position (C177_counterexample_plotly, for every picture)")
claim("C178","partial",["Kwant.Percentile.C178_partial","Kwant.Percentile.C178_counterexample"],"At most ceil((n-1)(100-percentile)/200) data are outside on each side, so the property holds up to rounding; it fails for few data with outliers (C178_counterexample)")

FA="Kwant.Fam."
claim("C179","partial",[FA+x for x in ("C179_partial","C179_sites","C179_counterexample")],"Different data always give different families, and the order is proved in full.  The converse fails: norbs=1 and norbs=1.0 (both accepted and converted to 1), or 0.0 and -0.0 in a vector, give families that compare unequal (C179_counterexample); it is proved without these.  Python's repr of floats and strings by its documented properties")
claim("C180","partial",[FA+x for x in ("C180_partial","C180_counterexample")],"Proved if there is a name for each site of the basis, in particular if the name of the lattice is given.  With a sequence of fewer names sites of the basis are dropped without an error (C180_counterexample), unlike for norbs, whose length is checked")
claim("C181","partial",["Kwant.Lambdify.C181_partial","Kwant.Lambdify.C181_counterexample"],"Proved for all expressions in which different symbols and applied functions have different names.  Others, such as A(x) + A(y), raise SyntaxError; and functions known to sympy, such as sin, become parameters that the caller has to supply (C181_counterexample)")

FO="Kwant.Fortran."
claim("C182","partial",[FO+x for x in ("C182_partial","C182_accepts","C182_commonType","C182_example","C182_counterexample")],"Proved for arrays, lists and None.  It fails for objects that are no arrays but share their memory with the array numpy makes of them, such as array.array: the test `arr is not args[i]` takes the array for a copy, and the object is overwritten although overwrite=False (C182_counterexample)")

PE="Kwant.Peierls."
claim("C183","proved",[PE+x for x in ("C183_succeeds","C183_finite","C183_infinite","C183_leads","C183_parameters","C183_gauge","Example.C183_counterexample")],"Combines the models of Builder, of finalization and of add_peierls_phase.  C183_counterexample also serves as the concrete case to which the theorems apply; what it shows to fail belongs to C184.  Names of lead parameters are assumed to be injective in the number of the lead for C183_gauge.")
claim("C184","partial",[PE+"C184_discrete_partial",PE+"Example.C183_counterexample"],"Proved for chiral symmetry and the conservation law, for all sites having the same number of orbitals.  It fails for particle-hole symmetry, which is copied although a scalar phase may break it (C183_counterexample): complex conjugation as particle-hole symmetry and a purely imaginary hopping.")

CL="Kwant.ConsLaw."
claim("C185","proved",[CL+x for x in ("C185_refused","C185_projectors","C185_integer","C185_accepted","C185_blocks","C185_counterexample")],"Exact arithmetic; eigh, eigvalsh and round by contracts (exNum_ok shows that they can be met); agreement of eigvalsh with eigh is proved, not assumed.  C185_counterexample: the tolerance is relative, so a law with the eigenvalue 60000.25 is accepted.")

CS="Kwant.ClosestSite."
claim("C186","proved",[CS+x for x in ("C186_symmetry","C186_finite","C186_errors")],"Exact arithmetic; numpy routines by contracts as in C70/C71.")

B2="Kwant.Bands2D."
claim("C187","partial",[B2+x for x in ("C187_bands","C187_bloch","C187_box","C187_mask_partial","C187_refused","C187_succeeds","C187_example","exists_vor","C187_counterexample")],"Values, phases, refusals, termination, and that the box contains the zone and no point of the zone is masked: for all periods.  That the mask is exact and the box the smallest one: for periods with 2|a0.a1| <= min(|a0|^2,|a1|^2) (orthogonal, graphene...).  In general it is false: the coordinates of the neighbors are transformed with the transposed matrix (ta.dot(voronoi, transf) instead of transf.T), for the periods (1,-3),(0,1) momenta outside of the zone are plotted (C187_counterexample).  qhull by contract (exists_vor: it can be met).")

SC="Kwant.Scatt."
claim("C188","proved",[SC+x for x in ("C188_modes","C188_smatrix_reversed","C188_smatrix_preserved","C188_reversed","C188_preserved","C188_transmission_reversed","C188_transmission_preserved","C188_onsager","C188_symmetric","C188_real","C188_opposite_energy","exTimeReversal","exParticleHole","exChiral","C188_example")],"The scattering matrix is the one that smatrix returns (C116).  exTimeReversal, exParticleHole, exChiral: symmetries of the example, with which all hypotheses are met (C188_example).")
claim("C189","proved",[SC+x for x in ("C189_out_of_in","C189_reversed","C189_preserved","C189_time_reversal","C189_chiral","C189_particle_hole","C189_majorana","C189_basis","C189_computed_time_reversal","C189_computed_chiral","C189_computed_particle_hole","C189_example")]+[LD+"C189_modes",LD+"C189_lead_example"],"C189_reversed and C189_preserved are the general statements, with arbitrary partners and phases.  That the modes of a lead have the assumed form is proved for leads without conservation laws under the conditions of C156-C159 (C189_modes), so that the C189_computed theorems are about the modes that the code returns.")
claim("C190","proved",[SC+x for x in ("C190_zero","C190_transmission","C190_smatrix","C190_example")],"Same contracts as C114 and C116.  C190_zero needs no projectors, only modes with definite values; C190_transmission and C190_smatrix are about the computed modes and what smatrix returns.")
claim("C191","proved",[SC+x for x in ("C191_waves","C191_smatrix","C191_exists","C191_transmission","C191_bound","C191_many","C191_returned","C191_example")],"About the systems that the solvers see (Open); that attach_lead adds exactly these cells is the subject of C33 to C36, and their numbering does not matter by C192.  Same contracts as C116.")
claim("C192","proved",[SC+x for x in ("C192_waves","C192_bound","C192_smatrix","C192_example","reorder_ok")],"About the systems that the solvers see (Open).  Same contracts as C116.")

VA="Kwant.Value."
claim("C193","proved",[VA+x for x in ("C193_value","C193_args","C193_const","C193_ok","C193_names","C193_example","C193_counterexample_const","C193_counterexample_cache","C193_counterexample_matrix")],"Exact arithmetic in any field; printing by sympy and parsing by Python are the identity, expand distributes products over sums.  The counterexamples show that the exceptions are needed: a parameter _const_0 is overwritten, a parameter _cache_0 hides a matrix, [[1/(x+1)]] raises TypeError whereas the scalar 1/(x+1) is accepted.")
claim("C194","proved",[SC+x for x in ("C194_transmission","C194_smatrix","C194_example")],"Same contracts as C116 and C190; leads with a nonzero hopping.  C194_smatrix is about what smatrix returns.")
claim("C195","proved",["Kwant.Call."+x for x in ("C195_new","C195_old","C195_accepts","C195_documented","C195_defaults","C195_rewrap","C195_modes_selfenergy","C195_deprecate","accepts_keyword","C195_example","C195_counterexample")],"The binding of arguments by Python is modelled for all signatures.  C195_accepts says for every signature which call is made; C195_counterexample: a function of the old API whose second parameter is called params (or that takes *params) is not recognized, the lead raises TypeError.")
claim("C196","proved",["Kwant.Schur."+x for x in ("C196_schur","C196_inverse","C196_errors","C196_ignored","schur_eliminates","schur_inverse","C196_example","C196_counterexample")],"Contract: the documentation of MUMPS (Schur.Lib).  If MUMPS reports failure (singular A_JJ, indices out of range or repeated) no exception is raised and uninitialized memory is returned (C196_counterexample); ooc and pivot_tol are accepted but ignored (C196_ignored).")
claim("C197","proved",[SC+x for x in ("C197_waves","C197_states","C197_smatrix","C197_same","C197_transmission","C197_bound","C197_density","C197_gauge","C197_returned","C197_example","gauge_ok")],"About the systems that the solvers see (Open).  Same contracts as C116; C197_returned is about what smatrix returns.")
claim("C198","proved",["Kwant.PlotSites."+x for x in ("C198_sites","C198_default_colors","C198_example","C198_counterexample_builder","C198_counterexample_finalized")],"Contract: how a matplotlib collection cycles through its lists and what to_rgba_array accepts.  Per-site 'no symbol' is covered in 2d, and together with colours that are no numbers; otherwise kwant fails (C198_counterexample_finalized).  Path symbols are not modelled.")
claim("C199","proved",["Kwant.PlotSites."+x for x in ("C199_hoppings","C199_leads","C199_fade","C199_inherit","C199_inherit_symbol","C199_example","C199_counterexample")],"Same contract as C198.  lead_site_symbol 'no symbol', also when inherited from site_symbol, makes plot fail (C199_counterexample); an RGB tuple as hop_color is taken for numbers if there are three hoppings.")
claim("C200","proved",["Kwant.RefLen."+x for x in ("C200_nn","C200_shortest","C200_units","C200_shift","C200_example","C200_counterexample")],"Exact real arithmetic.  Systems without hoppings violate the documentation: C200_counterexample.")
claim("C201", "proved", ["Kwant.Solver.C201_solve", "Kwant.Solver.C201_smatrix", "Kwant.Solver.C201_greens", "Kwant.Solver.C201_wave", "Kwant.Solver.C201_ldos", "Kwant.Solver.C201_unitary", "Kwant.Solver.C201_example", "Kwant.Solver.C201_unitary_example"],
      "exact arithmetic; the factorization of SciPy (SuperLU or UMFPACK) is a parameter with the contract that it either fails or solves all right-hand sides; for the scattering matrix the restriction of C94 is part of the statement")
claim("C202", "proved", ["Kwant.Stream."+x for x in ("C202_lines","C202_thickest","C202_ends","C202_ends_bytes","C202_blending","C202_positions","C202_image","C202_background","C202_example","C202_counterexample_image","C202_counterexample_bgcolor")],
      "Exact real arithmetic.  Contract: where matplotlib puts pixels, and that Axes.set_axis_bgcolor does not exist in matplotlib 3.2.2 or newer.  The two sRGB functions are inverse to each other except in an interval of length 7e-8 (the hypotheses Gap and LinearGap).")
claim("C203", "proved", ["Kwant.Output."+x for x in ("C203_engine","C203_matplotlib","C203_plotly","C203_none","C203_stream","C203_example","C203_counterexample")],
      "Calls whose other arguments are valid; only the output is modelled here.  The documentation of streamplot and current (the figure is returned) is false: C203_counterexample.")
claim("C204", "proved", ["Kwant.GaugeSparse."+x for x in ("C204_assign","C204_structure","C204_add","C204_shift","C204_distance","C204_unsorted","C204_example")],
      "Contract: scipy's conversion to CSR gives canonical matrices (no duplicates, sorted columns).  Weights are elements of an arbitrary type (CSR) or commutative monoid (COO).")
claim("C205", "partial", ["Kwant.ScalarPlot."+x for x in ("C205_limits","C205_positions_partial","C205_counterexample","C205_example")],
      "The code violates the property for fields that are not square (C205_counterexample, for all of them); proved for square ones.  Contract: plotly draws z[j][i] at (x[i], y[j]).")

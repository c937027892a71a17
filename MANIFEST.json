{
 "claims": [
  {
   "property": "C01",
   "status": "proved",
   "theorems": [
    "Kwant.Graph.C01_outNeighbors"
   ],
   "note": ""
  },
  {
   "property": "C02",
   "status": "proved",
   "theorems": [
    "Kwant.Graph.C02_inNeighbors",
    "Kwant.Graph.C02_disabled"
   ],
   "note": ""
  },
  {
   "property": "C03",
   "status": "proved",
   "theorems": [
    "Kwant.Graph.C03_specId_injective",
    "Kwant.Graph.C03_edgeId",
    "Kwant.Graph.C03_surjective",
    "Kwant.Graph.C03_outEdgeIds"
   ],
   "note": ""
  },
  {
   "property": "C04",
   "status": "proved",
   "theorems": [
    "Kwant.Graph.C04_toList"
   ],
   "note": ""
  },
  {
   "property": "C05",
   "status": "partial",
   "theorems": [
    "Kwant.Graph.C05_hasEdge",
    "Kwant.Graph.C05_edgeIds",
    "Kwant.Graph.C05_idsOf_increasing",
    "Kwant.Graph.C05_doubly_dangling"
   ],
   "note": "proved except for a negative tail with a negative head, where first_edge_id/all_edge_ids read out of bounds (C05_doubly_dangling)"
  },
  {
   "property": "C06",
   "status": "partial",
   "theorems": [
    "Kwant.Graph.C06_tail_partial",
    "Kwant.Graph.C06_tail_no_empty_partial",
    "Kwant.Graph.C06_counterexample"
   ],
   "note": "property is false of the code when a node without outgoing edges precedes the tail: negation with witness + exact characterisation of when the result is right"
  },
  {
   "property": "C07",
   "status": "proved",
   "theorems": [
    "Kwant.Graph.C07_edges",
    "Kwant.Graph.C07_addEdge",
    "Kwant.Graph.C07_numNodes_mono",
    "Kwant.Graph.C07_nodes",
    "Kwant.Graph.C07_setNumNodes",
    "Kwant.Graph.C07_compressed"
   ],
   "note": ""
  },
  {
   "property": "C08",
   "status": "proved",
   "theorems": [
    "Kwant.Graph.C08_pickle"
   ],
   "note": ""
  },
  {
   "property": "C10",
   "status": "proved",
   "theorems": [
    "Kwant.TransSym.C10_lawful",
    "Kwant.TransSym.C10_actHop",
    "Kwant.TransSym.C10_position"
   ],
   "note": "exact integer arithmetic; the numerical construction of the matrices is represented by its result"
  },
  {
   "property": "C11",
   "status": "proved",
   "theorems": [
    "Kwant.C11_toFd",
    "Kwant.TransSym.C10_lawful",
    "Kwant.noSymmetry_lawful"
   ],
   "note": ""
  },
  {
   "property": "C12",
   "status": "proved",
   "theorems": [
    "Kwant.TransSym.C12_reversed"
   ],
   "note": ""
  },
  {
   "property": "C20",
   "status": "proved",
   "theorems": [
    "Kwant.Builder.C20_wellformed",
    "Kwant.Builder.Reachable.wf"
   ],
   "note": "histories: set/del site/hopping, eradicate_dangling, update, reversed, substituted, fill (failing ones included)"
  },
  {
   "property": "C21",
   "status": "proved",
   "theorems": [
    "Kwant.Builder.C21_setSite"
   ],
   "note": ""
  },
  {
   "property": "C22",
   "status": "proved",
   "theorems": [
    "Kwant.Builder.C22_setHop"
   ],
   "note": ""
  },
  {
   "property": "C23",
   "status": "proved",
   "theorems": [
    "Kwant.Builder.C23_hermitian",
    "Kwant.Builder.C23_get_iff_contains"
   ],
   "note": "herm_conj on constants is any involution"
  },
  {
   "property": "C24",
   "status": "proved",
   "theorems": [
    "Kwant.Builder.C24_setHop",
    "Kwant.Builder.C24_del"
   ],
   "note": ""
  },
  {
   "property": "C25",
   "status": "proved",
   "theorems": [
    "Kwant.Builder.C25_delSite"
   ],
   "note": ""
  },
  {
   "property": "C26",
   "status": "proved",
   "theorems": [
    "Kwant.Builder.C26_delHop"
   ],
   "note": ""
  },
  {
   "property": "C27",
   "status": "proved",
   "theorems": [
    "Kwant.Builder.C27_enumeration"
   ],
   "note": ""
  },
  {
   "property": "C28",
   "status": "proved",
   "theorems": [
    "Kwant.Builder.C28_neighbors"
   ],
   "note": ""
  },
  {
   "property": "C29",
   "status": "proved",
   "theorems": [
    "Kwant.Builder.C29_eradicate"
   ],
   "note": ""
  },
  {
   "property": "C30",
   "status": "proved",
   "theorems": [
    "Kwant.Builder.C30_update",
    "Kwant.Builder.C30_leads"
   ],
   "note": ""
  },
  {
   "property": "C31",
   "status": "proved",
   "theorems": [
    "Kwant.Builder.C31_expand",
    "Kwant.Builder.C31_leaves",
    "Kwant.Builder.C31_reachable",
    "Kwant.Builder.C31_setSites",
    "Kwant.Builder.C31_setHops"
   ],
   "note": ""
  },
  {
   "property": "C32",
   "status": "partial",
   "theorems": [
    "Kwant.Builder.C32_substitute",
    "Kwant.Builder.C32_compose",
    "Kwant.Builder.C32_substituted_partial",
    "Kwant.Builder.C32_substituted_collision",
    "Kwant.Builder.C32_substituted_values",
    "Kwant.Builder.C32_counterexample"
   ],
   "note": "proved when all constant values are hashable; the code raises TypeError for unhashable constants (e.g. numpy arrays): C32_counterexample"
  },
  {
   "property": "C33",
   "status": "proved",
   "theorems": [
    "Kwant.Builder.C33_hoppingKind",
    "Kwant.Builder.C33_hoppingKind_orbit"
   ],
   "note": ""
  },
  {
   "property": "C34",
   "status": "proved",
   "theorems": [
    "Kwant.Builder.C34_fill",
    "Kwant.Builder.C34_failure",
    "Kwant.Builder.C34_shape",
    "Kwant.Builder.C34_terminates",
    "Kwant.Builder.C34_succeeds"
   ],
   "note": "start given as sites; iteration order of the active set arbitrary; has_subgroup assumed to mean subgroup"
  },
  {
   "property": "C35",
   "status": "partial",
   "theorems": [
    "Kwant.Builder.C35_attach",
    "Kwant.Builder.C35_attach_partial",
    "Kwant.Builder.C35_attach_free",
    "Kwant.Builder.C35_counterexample"
   ],
   "note": "proved without the origin argument; with origin the code may delete original system sites (C35_counterexample)"
  },
  {
   "property": "C36",
   "status": "partial",
   "theorems": [
    "Kwant.Builder.C36_extend_partial",
    "Kwant.Builder.C36_extend_connected_partial",
    "Kwant.Builder.C36_counterexample"
   ],
   "note": "false for leads whose cells are not all connected to the fundamental domain (witness); proved for the connected part"
  },
  {
   "property": "C40",
   "status": "proved",
   "theorems": [
    "Kwant.Final.C40_sites"
   ],
   "note": ""
  },
  {
   "property": "C41",
   "status": "proved",
   "theorems": [
    "Kwant.Final.C41_hamiltonian",
    "Kwant.Final.C41_exclusive"
   ],
   "note": ""
  },
  {
   "property": "C42",
   "status": "proved",
   "theorems": [
    "Kwant.Final.C42_hermitian"
   ],
   "note": ""
  },
  {
   "property": "C43",
   "status": "proved",
   "theorems": [
    "Kwant.System.C43_getOrbs",
    "Kwant.System.C43_none"
   ],
   "note": ""
  },
  {
   "property": "C44",
   "status": "proved",
   "theorems": [
    "Kwant.System.C44_dense",
    "Kwant.System.C44_sparse",
    "Kwant.System.C44_success",
    "Kwant.System.C44_builder",
    "Kwant.System.finite_lawful",
    "Kwant.System.infinite_lawful"
   ],
   "note": "any star-additive monoid of matrix elements; Hermiticity is only needed for the full-matrix path, and finalized builders have it"
  },
  {
   "property": "C45",
   "status": "proved",
   "theorems": [
    "Kwant.System.C45_hermitian"
   ],
   "note": ""
  },
  {
   "property": "C46",
   "status": "proved",
   "theorems": [
    "Kwant.Final.C46_layout",
    "Kwant.Final.C92_succeeds_iff",
    "Kwant.Final.line_lawful",
    "Kwant.Final.line_ordInv"
   ],
   "note": "for symmetries that keep the order of sites (translations do: line_ordInv)"
  },
  {
   "property": "C47",
   "status": "proved",
   "theorems": [
    "Kwant.Final.C47_hamiltonian",
    "Kwant.Final.C47_hermitian"
   ],
   "note": ""
  },
  {
   "property": "C48",
   "status": "proved",
   "theorems": [
    "Kwant.System.C48_precalculate",
    "Kwant.System.C48_succeeds"
   ],
   "note": ""
  },
  {
   "property": "C49",
   "status": "partial",
   "theorems": [
    "Kwant.System.C49_ignored_partial",
    "Kwant.System.C49_counterexample"
   ],
   "note": "false of the code at zero energy: the attribute name 'particle-hole' is misspelt, so a broken particle-hole symmetry is still used (C49_counterexample, for every system); proved for the other symmetries and for nonzero energy"
  },
  {
   "property": "C50",
   "status": "partial",
   "theorems": [
    "Kwant.Oper.C50_sites",
    "Kwant.Oper.C50_sites_all",
    "Kwant.Oper.C50_hops_partial",
    "Kwant.Oper.C50_counterexample"
   ],
   "note": "sites: proved; hoppings: the test is `where > cell_size` (off by one), so the inter-cell hopping of every infinite system to site number cell_size is accepted (C50_counterexample)"
  },
  {
   "property": "C51",
   "status": "partial",
   "theorems": [
    "Kwant.Oper.C51_shape_partial",
    "Kwant.Oper.C51_square_partial",
    "Kwant.Oper.C51_counterexample"
   ],
   "note": "the test uses `and` instead of `or`: a block with one wrong dimension is accepted (C51_counterexample)"
  },
  {
   "property": "C52",
   "status": "proved",
   "theorems": [
    "Kwant.Oper.C52_blocks",
    "Kwant.Oper.C52_succeeds"
   ],
   "note": ""
  },
  {
   "property": "C53",
   "status": "partial",
   "theorems": [
    "Kwant.Solver.C53_transmission_partial",
    "Kwant.Solver.C53_returns",
    "Kwant.Solver.C53_center_partial",
    "Kwant.Solver.C53_counterexample"
   ],
   "note": "proved whenever the element is present or one row or column is missing; with both missing the conditional expression binds too weakly and the result is wrong in general (C53_counterexample; C53_center_partial gives the exact difference)"
  },
  {
   "property": "C54",
   "status": "proved",
   "theorems": [
    "Kwant.Solver.C54_conductance",
    "Kwant.Solver.C54_rows",
    "Kwant.Solver.C54_succeeds"
   ],
   "note": "columns: whenever the matrix is returned; rows: if the transmissions are those of a unitary matrix"
  },
  {
   "property": "C55",
   "status": "proved",
   "theorems": [
    "Kwant.Solver.C55_slice",
    "Kwant.Solver.C55_absent",
    "Kwant.Solver.C55_partition",
    "Kwant.Solver.C55_blocks",
    "Kwant.Solver.C55_block_transmission"
   ],
   "note": ""
  },
  {
   "property": "C56",
   "status": "partial",
   "theorems": [
    "Kwant.Oper.C56_call_partial",
    "Kwant.Oper.C56_act_partial",
    "Kwant.Oper.C56_act_call_partial",
    "Kwant.Oper.C56_sum",
    "Kwant.Oper.C56_tocoo_partial",
    "Kwant.Oper.goodRanges_of_fams",
    "Kwant.Oper.spin_regular",
    "Kwant.Oper.spin_call",
    "Kwant.Oper.C56_counterexample",
    "Kwant.Oper.C56_tocoo_counterexample"
   ],
   "note": "proved if the single onsite matrix has the size of every site with more than one orbital; false for scalar onsites on sites with fewer (but more than one) orbitals than the largest site (C56_counterexample for every such system), and for tocoo on every smaller site"
  },
  {
   "property": "C57",
   "status": "partial",
   "theorems": [
    "Kwant.Oper.C57_current_partial",
    "Kwant.Oper.C57_source_partial",
    "Kwant.Oper.C57_continuity_partial",
    "Kwant.Oper.C57_antisymmetric",
    "Kwant.Oper.C57_counterexample"
   ],
   "note": "proved under the same condition, and for callable onsites if the two ends of each hopping have equally many orbitals; false otherwise: the onsite matrix is stored with the shape of the hopping (C57_counterexample)"
  },
  {
   "property": "C58",
   "status": "proved",
   "theorems": [
    "Kwant.Oper.C58_bind",
    "Kwant.Oper.C58_bind_fails"
   ],
   "note": ""
  },
  {
   "property": "C60",
   "status": "proved",
   "theorems": [
    "Kwant.DiscSym.C60_accepted",
    "Kwant.DiscSym.C60_exact",
    "Kwant.DiscSym.C60_exact_few"
   ],
   "note": "exact arithmetic; symmetries as operators on wave functions"
  },
  {
   "property": "C61",
   "status": "proved",
   "theorems": [
    "Kwant.Rmt.C61_gaussian",
    "Kwant.Rmt.C61_complete"
   ],
   "note": "exact arithmetic; the random arrays are arbitrary"
  },
  {
   "property": "C62",
   "status": "proved",
   "theorems": [
    "Kwant.Gauge.C62_loops",
    "Kwant.Gauge.C62_finite",
    "Kwant.Gauge.C62_gauge",
    "Kwant.Gauge.C62_closed",
    "Kwant.Gauge.C62_constant"
   ],
   "note": "finite systems without leads; exact arithmetic; for callable fields the existence of a vector potential for the integral is a hypothesis (HasPotential), for constant fields it is proved"
  },
  {
   "property": "C63",
   "status": "proved",
   "theorems": [
    "Kwant.Dijkstra.C63_dijkstra",
    "Kwant.Dijkstra.C63_links",
    "Kwant.Dijkstra.C63_predecessors",
    "Kwant.Dijkstra.C63_unreachable"
   ],
   "note": "exact arithmetic; remove_min of the heap by its contract (returns a node of minimal value); C63_unreachable: an unreachable target gets length 0 and its path is left out, shifting the others"
  },
  {
   "property": "C64",
   "status": "partial",
   "theorems": [
    "Kwant.Gauge.C64_partial",
    "Kwant.Gauge.C64_counterexample"
   ],
   "note": "fails in the code: line 1033 of gauge.py passes average=False whatever the argument (C64_counterexample)"
  },
  {
   "property": "C65",
   "status": "proved",
   "theorems": [
    "Kwant.Bands.C65_energies",
    "Kwant.Bands.C65_velocities",
    "Kwant.Bands.C65_degenerate"
   ],
   "note": "exact arithmetic; np.linalg.eigh/eigvalsh by their contracts; C65_degenerate shows that the restriction to non-degenerate bands is necessary"
  },
  {
   "property": "C66",
   "status": "proved",
   "theorems": [
    "Kwant.Wrap.C66_bloch",
    "Kwant.Wrap.C66_no_momenta"
   ],
   "note": "for keep=None and any keep; the value functions must respect the symmetry of the builder (Periodic) and there must be at least one momentum (C66_no_momenta: for NoSymmetry the parameters of functions are lost)"
  },
  {
   "property": "C67",
   "status": "proved",
   "theorems": [
    "Kwant.Digest.C67_exact",
    "Kwant.Digest.C67_uniform",
    "Kwant.Digest.C67_gauss",
    "Kwant.Digest.C67_fair"
   ],
   "note": "the md5 digest is an arbitrary byte string"
  },
  {
   "property": "C70",
   "status": "proved",
   "theorems": [
    "Kwant.LLL.C70_lll",
    "Kwant.LLL.C70_terminates"
   ],
   "note": "exact arithmetic; np.linalg.lstsq by its contract; the result need not be size-reduced, which the code does not promise"
  },
  {
   "property": "C71",
   "status": "proved",
   "theorems": [
    "Kwant.Cvp.C71_closest",
    "Kwant.Cvp.C71_terminates",
    "Kwant.Cvp.C71_groups",
    "Kwant.Lat.C71_groups_terminates"
   ],
   "note": "exact arithmetic; lstsq and argsort by their contracts; with group_by_length the search ends if there are n distances separated by more than the tolerance"
  },
  {
   "property": "C72",
   "status": "proved",
   "theorems": [
    "Kwant.Voronoi.C72_voronoi",
    "Kwant.Voronoi.C72_reduced",
    "Kwant.Voronoi.C72_irredundant",
    "Kwant.Voronoi.C72_terminates"
   ],
   "note": "exact arithmetic; exact set of faces for rtol=0, irredundancy for every rtol >= 0"
  },
  {
   "property": "C80",
   "status": "partial",
   "theorems": [
    "Kwant.Common.C80_memoize_partial",
    "Kwant.Common.key_hashable",
    "Kwant.Common.C80_counterexample"
   ],
   "note": "proved if calls with the same key have the same result (in particular for hashable arguments); an integer equal to the id of an earlier unhashable argument collides with it (C80_counterexample)"
  },
  {
   "property": "C81",
   "status": "proved",
   "theorems": [
    "Kwant.Common.C81_getParameters"
   ],
   "note": ""
  },
  {
   "property": "C82",
   "status": "proved",
   "theorems": [
    "Kwant.Common.C82_interleave"
   ],
   "note": ""
  },
  {
   "property": "C90",
   "status": "proved",
   "theorems": [
    "Kwant.Final.C90_leads"
   ],
   "note": ""
  },
  {
   "property": "C91",
   "status": "proved",
   "theorems": [
    "Kwant.Final.C91_parameters",
    "Kwant.Final.C91_sufficient"
   ],
   "note": "finite systems"
  },
  {
   "property": "C92",
   "status": "proved",
   "theorems": [
    "Kwant.Final.C92_succeeds_iff",
    "Kwant.Final.line_ordInv"
   ],
   "note": ""
  },
  {
   "property": "C93",
   "status": "proved",
   "theorems": [
    "Kwant.System.C93_sparse",
    "Kwant.System.C93_sparseFull"
   ],
   "note": "full matrix: graphs without loops (finalized builders: finite_lawful, infinite_lawful)"
  },
  {
   "property": "C94",
   "status": "partial",
   "theorems": [
    "Kwant.Solver.C94_lists",
    "Kwant.Solver.C94_kept_partial",
    "Kwant.Solver.C94_counterexample",
    "Kwant.Solver.deadSys_ok",
    "Kwant.Solver.live_kept"
   ],
   "note": "proved if no lead has zero hopping or all leads are requested; false otherwise: leads without hopping shift the numbering of the kept variables (C94_counterexample)"
  },
  {
   "property": "C95",
   "status": "proved",
   "theorems": [
    "Kwant.Solver.C95_scattering",
    "Kwant.Solver.C95_other_blocks",
    "Kwant.Solver.C95_complete",
    "Kwant.Solver.C95_smatrix_partial",
    "Kwant.Solver.C95_greens",
    "Kwant.Solver.live_solves",
    "Kwant.Solver.live_greens",
    "Kwant.Solver.liveSys_ok"
   ],
   "note": "C95_smatrix_partial puts the solution at the documented places of the scattering matrix, under the restriction of C94"
  },
  {
   "property": "C96",
   "status": "proved",
   "theorems": [
    "Kwant.Solver.C96_conservation",
    "Kwant.Solver.green_example"
   ],
   "note": "exact arithmetic; the number of channels (eigenvalues of Gamma above a threshold) is a parameter"
  },
  {
   "property": "C97",
   "status": "proved",
   "theorems": [
    "Kwant.Solver.C97_wave_function",
    "Kwant.Solver.C97_ldos"
   ],
   "note": ""
  },
  {
   "property": "C68",
   "status": "partial",
   "theorems": [
    "Kwant.DiscSym.C68_canonical_partial",
    "Kwant.DiscSym.C68_counterexample"
   ],
   "note": "the absolute value is taken of the comparison instead of the entries: negative and imaginary blocks are not seen (C68_counterexample)"
  },
  {
   "property": "C69",
   "status": "proved",
   "theorems": [
    "Kwant.DiscSym.C69_validate"
   ],
   "note": "exact arithmetic"
  },
  {
   "property": "C100",
   "status": "partial",
   "theorems": [
    "Kwant.DiscSym.C100_projectors_partial",
    "Kwant.DiscSym.C100_accepts",
    "Kwant.DiscSym.C100_counterexample"
   ],
   "note": "the constructor only checks that the sum of P P^+ is the identity: proved if there are n columns, false otherwise (C100_counterexample)"
  },
  {
   "property": "C98",
   "status": "proved",
   "theorems": [
    "Kwant.Rmt.C98_circular",
    "Kwant.Rmt.C98_charge",
    "Kwant.Rmt.C98_charge_DIII",
    "Kwant.Rmt.pfaffian_unique",
    "Kwant.Rmt.C98_returns"
   ],
   "note": "exact arithmetic; np.linalg.qr by its contract; the Pfaffian of class DIII is specified by Pf(B^T J B) = det B, which is proved to be well defined; for n = 1 in class D the swap raises an IndexError"
  },
  {
   "property": "C99",
   "status": "partial",
   "theorems": [
    "Kwant.Bands.C99_curvatures_partial",
    "Kwant.Bands.C99_counterexample"
   ],
   "note": "np.divide is called with where= but without out=: the diagonal of ediff is uninitialised memory g, and the result is the second derivative minus 2 g v^2 (C99_counterexample)"
  },
  {
   "property": "C101",
   "status": "proved",
   "theorems": [
    "Kwant.Gauge.C101_gauge",
    "Kwant.Gauge.C101_closed",
    "Kwant.Gauge.C101_constant",
    "Kwant.Gauge.C101_translation",
    "Kwant.Gauge.C101_exception",
    "Kwant.Gauge.C101_counterexample"
   ],
   "note": "exact arithmetic; the layout of the sites of a finalized infinite system as in C46; C101_exception: exactly when an exception is raised; C101_counterexample: a chain of one site per unit cell is refused although its unit cell is connected (np.array([]).transpose() cannot be unpacked)"
  },
  {
   "property": "C102",
   "status": "partial",
   "theorems": [
    "Kwant.Shape.C102_rounds",
    "Kwant.Shape.C102_shape",
    "Kwant.Shape.C102_exception",
    "Kwant.Shape.C102_terminates",
    "Kwant.Shape.C102_nodup",
    "Kwant.Shape.C102_duplicates",
    "Kwant.Lat.C102_lattice",
    "Kwant.Lat.C102_fd",
    "Kwant.Lat.C102_everything",
    "Kwant.Lat.C102_deltas_partial",
    "Kwant.Lat.C102_generate",
    "Kwant.Lat.C102_square",
    "Kwant.Lat.C102_triangular",
    "Kwant.Lat.C102_counterexample"
   ],
   "note": "everything is proved relative to the set of steps `voronoi` that the lattice computes; that these are all the steps to neighboring Voronoi cells is proved for reduced primitive vectors (all the lattices of kwant.lattice), and is false of the code in general (C102_counterexample: voronoi is multiplied by transf instead of its transpose). Sites can be yielded twice if two start tags have the same tag in the fundamental domain (C102_duplicates), and only then (C102_nodup). All sublattices have the same fundamental domain of tags."
  },
  {
   "property": "C103",
   "status": "proved",
   "theorems": [
    "Kwant.Lat.C103_init",
    "Kwant.Lat.C103_nClosest",
    "Kwant.Lat.C103_closest",
    "Kwant.Lat.C103_terminates",
    "Kwant.Lat.C103_pos_injective",
    "Kwant.Lat.C103_roundtrip"
   ],
   "note": "exact arithmetic; numpy routines by their contracts (NumOk)"
  },
  {
   "property": "C105",
   "status": "proved",
   "theorems": [
    "Kwant.Shape.C105_symmetric",
    "Kwant.Lat.C105_cylinder",
    "Kwant.Lat.C105_invariant",
    "Kwant.Lat.C105_wire"
   ],
   "note": "relative to the steps of the flood fill (see C102)"
  },
  {
   "property": "C106",
   "status": "proved",
   "theorems": [
    "Kwant.Lat.C106_hasSubgroup",
    "Kwant.Lat.C106_subgroup",
    "Kwant.Lat.C106_subSym"
   ],
   "note": "exact arithmetic (np.allclose is equality)"
  },
  {
   "property": "C107",
   "status": "proved",
   "theorems": [
    "Kwant.Lat.C107_outcome",
    "Kwant.Lat.C107_succeeds",
    "Kwant.Lat.C107_data",
    "Kwant.Lat.C107_act"
   ],
   "note": "exact arithmetic"
  },
  {
   "property": "C104",
   "status": "proved",
   "theorems": [
    "Kwant.Lat.C104_neighbors",
    "Kwant.Lat.C104_once",
    "Kwant.Lat.C104_terminates",
    "Kwant.Lat.C104_total"
   ],
   "note": "exact arithmetic; C104_total has no hypothesis about distances (it provides the tolerance)"
  },
  {
   "property": "C108",
   "status": "proved",
   "theorems": [
    "Kwant.Leads.C108_bloch",
    "Kwant.Leads.C108_columns",
    "Kwant.Leads.C108_forced"
   ],
   "note": "exact arithmetic; svd, lu_solve, gecon, inv by their contracts; the dropped singular values are zero (CutExact); with stabilization[1]=True the code does the opposite of what is documented (C108_forced) and the equivalence needs NoInfinite"
  },
  {
   "property": "C110",
   "status": "proved",
   "theorems": [
    "Kwant.Leads.C110_dyson",
    "Kwant.Leads.C110_green"
   ],
   "note": "the outgoing modes enter by the contract of the eigenvalue solver (Outgoing) and must be a basis; exact arithmetic"
  },
  {
   "property": "C111",
   "status": "proved",
   "theorems": [
    "Kwant.Leads.C111_broadening",
    "Kwant.Leads.C111_posSemidef"
   ],
   "note": "as C110; unit current of the modes is the hypothesis UnitCurrent, provided by C109"
  },
  {
   "property": "C109",
   "status": "proved",
   "theorems": [
    "Kwant.Leads.C109_modes",
    "Kwant.Leads.C109_error",
    "Kwant.Leads.C109_current",
    "Kwant.Leads.C109_initialised",
    "Kwant.Leads.C109_uninitialised",
    "Kwant.Leads.C109_example",
    "Kwant.Leads.velK_deriv"
   ],
   "note": "eigenvalues closer than the tolerance must be equal (Separated); C109_uninitialised shows that without this the velocities returned may be uninitialised memory. The documentation promises an order by |v| at equal momentum, the code sorts by v. qr, eigh, solve, argsort by their contracts, which exactNum_ok shows to be satisfiable."
  },
  {
   "property": "C112",
   "status": "proved",
   "theorems": [
    "Kwant.Solver.C112_flux",
    "Kwant.Solver.C112_unitary",
    "Kwant.Solver.C112_sum_rule",
    "Kwant.Solver.C112_example"
   ],
   "note": "exact arithmetic; the sparse solver by its contract (the linear system is solved); the current of the modes is the hypothesis CurrentOk, see C113"
  },
  {
   "property": "C113",
   "status": "proved",
   "theorems": [
    "Kwant.Leads.C113_block",
    "Kwant.Leads.C113_block_sym",
    "Kwant.Leads.C113_error",
    "Kwant.Leads.C113_error_sym",
    "Kwant.Leads.C113_example"
   ],
   "note": "C113_block_sym: blocks that discrete symmetries map to themselves, under the conditions (Benign) of C156-C159, which are necessary; errors: C113_error without such symmetries, C113_error_sym with them; exact arithmetic; (generalized) Schur decompositions, their ordering and eigenvectors by their contract, which exactEig_ok shows to be satisfiable for all matrices; different eigenvalues are further apart than the tolerances (WellSeparated)"
  },
  {
   "property": "C114",
   "status": "proved",
   "theorems": [
    "Kwant.Leads.C114_modes",
    "Kwant.Leads.C114_error",
    "Kwant.Leads.C114_sym_ok",
    "Kwant.Leads.C114_example",
    "Kwant.Leads.C114_zero_block",
    "Kwant.Leads.C114_tr_order",
    "Kwant.Leads.C114_sign"
   ],
   "note": "symmetries may relate different blocks, or map a block to itself under the conditions of C156-C159 (Benign), which are necessary; hypotheses of C113 for the lead. Observations about the code: a block without hopping makes modes fail (C114_zero_block); modes obtained by time reversal are in the opposite of the documented order (C114_tr_order), the documented order is proved when no block is transformed; for symmetries that flip the energy the stabilized modes and the wave functions differ by a sign (C114_sign, the sign s of the specification)"
  },
  {
   "property": "C115",
   "status": "proved",
   "theorems": [
    "Kwant.Leads.C115_modes",
    "Kwant.Leads.C115_selfenergy",
    "Kwant.Leads.C115_unique",
    "Kwant.Leads.C115_necessary",
    "Kwant.Leads.C115_dyson",
    "Kwant.Leads.C115_example"
   ],
   "note": "end to end from the lead to the self-energy, hypotheses of C114 about the lead; that there is no surface state is necessary (C115_necessary); exact arithmetic, la.solve by its contract"
  },
  {
   "property": "C116",
   "status": "proved",
   "theorems": [
    "Kwant.Scatt.C116_smatrix",
    "Kwant.Scatt.C116_unique",
    "Kwant.Scatt.C116_unitary",
    "Kwant.Scatt.C116_regular",
    "Kwant.Scatt.C116_succeeds",
    "Kwant.Scatt.C116_transmission",
    "Kwant.Scatt.C116_example"
   ],
   "note": "end to end from the Hamiltonians of the system and the leads; hypotheses of C114 about the leads (LeadsOk), leads with nonzero hopping when only some outgoing leads are requested (see C94); transmission with one of the two leads requested (see C53); exact arithmetic, the sparse solver by its contract"
  },
  {
   "property": "C117",
   "status": "proved",
   "theorems": [
    "Kwant.Scatt.C117_response",
    "Kwant.Scatt.C117_unique",
    "Kwant.Scatt.C117_fisher_lee",
    "Kwant.Scatt.C117_exists",
    "Kwant.Scatt.C117_succeeds",
    "Kwant.Scatt.C117_example"
   ],
   "note": "the self-energies by their specification (C115 shows that the code computes them); the eigenvalues of Gamma exactly, with a threshold below all positive ones; exact arithmetic, the sparse solver by its contract"
  },
  {
   "property": "C118",
   "status": "proved",
   "theorems": [
    "Kwant.Scatt.C118_wave_function",
    "Kwant.Scatt.C118_unique",
    "Kwant.Scatt.C118_ldos",
    "Kwant.Scatt.C118_response",
    "Kwant.Scatt.C118_example"
   ],
   "note": "end to end; the modes of the leads by C114; exact arithmetic, the sparse solver by its contract"
  },
  {
   "property": "C119",
   "status": "proved",
   "theorems": [
    "Kwant.Kpm.C119_moments_dos",
    "Kwant.Kpm.C119_moments_op",
    "Kwant.Kpm.C119_calls",
    "Kwant.Kpm.C119_history",
    "Kwant.Kpm.C119_init",
    "Kwant.Kpm.C119_counterexample",
    "Kwant.Kpm.C119_example"
   ],
   "note": "exact arithmetic; the eigenvalue solver that finds the bounds is not modelled (bounds given). C119_counterexample: num_moments=1 is always refused with an IndexError. add_moments(energy_resolution=...) adds the total number of moments needed instead of the missing ones."
  },
  {
   "property": "C120",
   "status": "proved",
   "theorems": [
    "Kwant.Kpm.C120_rescale",
    "Kwant.Kpm.C120_refused",
    "Kwant.Kpm.C120_again",
    "Kwant.Kpm.C120_counterexample"
   ],
   "note": "bounds given, or computed by eigsh within its tolerance; C120_counterexample: eps >= 2 is not refused"
  },
  {
   "property": "C121",
   "status": "proved",
   "theorems": [
    "Kwant.Kpm.C121_energies",
    "Kwant.Kpm.C121_densities"
   ],
   "note": "exact arithmetic; dct and chebval by their documentation"
  },
  {
   "property": "C122",
   "status": "proved",
   "theorems": [
    "Kwant.Kpm.C122_integrate_dos",
    "Kwant.Kpm.C122_integrate_op",
    "Kwant.Kpm.C122_trace",
    "Kwant.Kpm.C122_total",
    "Kwant.Kpm.C122_kernel",
    "Kwant.Kpm.C122_example"
   ],
   "note": "exact arithmetic"
  },
  {
   "property": "C123",
   "status": "proved",
   "theorems": [
    "Kwant.Kpm.C123_positive",
    "Kwant.Kpm.C123_densities",
    "Kwant.Kpm.C123_counterexample"
   ],
   "note": "exact arithmetic; C123_counterexample: without a kernel the density can be negative (and the hypotheses are met by an example)"
  },
  {
   "property": "C127",
   "status": "proved",
   "theorems": [
    "Kwant.Oper.C127_dict",
    "Kwant.Oper.C127_single",
    "Kwant.Oper.C127_hopping",
    "Kwant.Oper.C127_onsite_block"
   ],
   "note": "exact comparison in place of the tolerance of _is_herm_conj; the shape check of Hamiltonian blocks itself is C51"
  },
  {
   "property": "C124",
   "status": "proved",
   "theorems": [
    "Kwant.Kpm.C124_moments",
    "Kwant.Kpm.C124_trace",
    "Kwant.Kpm.C124_calls",
    "Kwant.Kpm.C124_call",
    "Kwant.Kpm.C124_retarded",
    "Kwant.Kpm.C124_init",
    "Kwant.Kpm.C124_example",
    "Kwant.Kpm.C124_counterexample"
   ],
   "note": "exact arithmetic, 0 < eps < 2; simpson is a parameter that depends on the values at the sampling points only. C124_counterexample: without accumulate_vectors (the default) add_moments raises half-way and leaves an object on which everything fails. The docstring of _build_integral_factor has m and n of Gamma exchanged with respect to the code; the code agrees with the formula in the docstring of conductivity (C124_retarded fixes the sign)."
  },
  {
   "property": "C125",
   "status": "proved",
   "theorems": [
    "Kwant.Kpm.C125_orbitals",
    "Kwant.Kpm.C125_local",
    "Kwant.Kpm.C125_ldos",
    "Kwant.Kpm.C125_all",
    "Kwant.Kpm.C125_random",
    "Kwant.Kpm.C125_random_mean"
   ],
   "note": "exact arithmetic; where normalized to existing sites (C50); random numbers ideal"
  },
  {
   "property": "C126",
   "status": "proved",
   "theorems": [
    "Kwant.Kpm.C126_velocity",
    "Kwant.Kpm.C126_ehrenfest",
    "Kwant.Kpm.C126_positions",
    "Kwant.Kpm.C126_direction",
    "Kwant.Kpm.C126_fermi",
    "Kwant.Kpm.C126_example"
   ],
   "note": "exact complex arithmetic; C126_direction: for the first direction that does not exist the check is off by one and an IndexError results"
  },
  {
   "property": "C128",
   "status": "proved",
   "theorems": [
    "Kwant.Continuum.discretize_operator",
    "Kwant.Continuum.expression_spec"
   ],
   "note": "expressions are sums of words in momenta, functions of position and constants (sympy and its expansion are not modelled); coordinates without duplicates, which the code does not check"
  },
  {
   "property": "C129",
   "status": "proved",
   "theorems": [
    "Kwant.Continuum.discretize_offsets",
    "Kwant.Continuum.discretize_onsite"
   ],
   "note": "hoppings whose value is the zero expression are kept (the code does too)"
  },
  {
   "property": "C130",
   "status": "proved",
   "theorems": [
    "Kwant.Continuum.wanted_spec",
    "Kwant.Continuum.kept_hoppings",
    "Kwant.Continuum.firstPos_neg"
   ],
   "note": "sorted by its contract"
  },
  {
   "property": "C131",
   "status": "proved",
   "theorems": [
    "Kwant.Continuum.discretize_hermitian",
    "Kwant.Continuum.exRashba_hermitian",
    "Kwant.Continuum.exKAK_hermitian",
    "Kwant.Continuum.kAk_hopping"
   ],
   "note": "real parameters"
  },
  {
   "property": "C132",
   "status": "proved",
   "theorems": [
    "Kwant.Continuum.build_operator",
    "Kwant.Continuum.build_hermitian",
    "Kwant.Continuum.build_element",
    "Kwant.Continuum.discretize_ok",
    "Kwant.Continuum.build_scalar",
    "Kwant.Continuum.build_lattice"
   ],
   "note": "exact arithmetic; the evaluation of the generated functions is by the meaning of the expressions"
  },
  {
   "property": "C133",
   "status": "proved",
   "theorems": [
    "Kwant.Continuum.continuum_limit",
    "Kwant.Continuum.exKAK_smooth"
   ],
   "note": "exact arithmetic"
  },
  {
   "property": "C134",
   "status": "proved",
   "theorems": [
    "Kwant.Continuum.dispersion",
    "Kwant.Continuum.dispersion_square"
   ],
   "note": "exact arithmetic"
  },
  {
   "property": "C135",
   "status": "proved",
   "theorems": [
    "Kwant.Continuum.symbolic_reserved",
    "Kwant.Continuum.coords_default",
    "Kwant.Continuum.coords_explicit",
    "Kwant.Continuum.build_scalar",
    "Kwant.Continuum.build_lattice",
    "Kwant.Continuum.build_refused",
    "Kwant.Continuum.build_oblique_accepted",
    "Kwant.Continuum.negative_power_dropped"
   ],
   "note": "Observations: coords is tested with a substring test, so that \"xy\" passes; duplicates in coords are not refused; the 1x2 primitive vector [[1,1]] is accepted for one coordinate because the comparison broadcasts (build_oblique_accepted); negative powers of momenta are silently treated as 1 (negative_power_dropped)"
  },
  {
   "property": "C136",
   "status": "proved",
   "theorems": [
    "Kwant.Continuum.landau_substituted",
    "Kwant.Continuum.landau_commutator",
    "Kwant.Continuum.ladder_commutator",
    "Kwant.Continuum.evaluate_ladder_term",
    "Kwant.Continuum.ladder_net"
   ],
   "note": "exact square roots"
  },
  {
   "property": "C137",
   "status": "proved",
   "theorems": [
    "Kwant.Continuum.landau_evaluates",
    "Kwant.Continuum.evaluate_no_error",
    "Kwant.Continuum.evaluate_error"
   ],
   "note": "evaluate_error: (a^dagger)^2 a a^dagger a^3 on level 1 raises although the value is 0"
  },
  {
   "property": "C138",
   "status": "partial",
   "theorems": [
    "Kwant.Continuum.landau_operator_partial",
    "Kwant.Continuum.landau_operator_transposed",
    "Kwant.Continuum.landau_kz_sign",
    "Kwant.Continuum.exLandau_hermitian",
    "Kwant.Continuum.exLandau_symmetric"
   ],
   "note": "The property fails for Hamiltonians that are odd in the third momentum: hopping offsets are not negated, unlike in build_discretized, so that k_z becomes -k_z (landau_operator_transposed says exactly what is built, landau_kz_sign is the counterexample).  Proved in full for summands that are symmetric in the normal direction.  Expressions and sympy as for C128"
  },
  {
   "property": "C139",
   "status": "partial",
   "theorems": [
    "Kwant.Continuum.landau_hermitian",
    "Kwant.Continuum.landau_operator_negative",
    "Kwant.Continuum.landau_negative_one_orbital_partial",
    "Kwant.Continuum.landau_linear_sign",
    "Kwant.Continuum.dirac_right",
    "Kwant.Continuum.dirac_built"
   ],
   "note": "Hermiticity proved in full.  With one orbital a negative field gives the complex conjugate of the right Hamiltonian (same energies).  With several orbitals the property fails: the order of the momenta is reversed but the orbitals are not transposed; a Dirac Hamiltonian does not depend on the sign of the field (landau_linear_sign, dirac_built against dirac_right)"
  },
  {
   "property": "C140",
   "status": "partial",
   "theorems": [
    "Kwant.Continuum.momenta_accepted",
    "Kwant.Continuum.normal_is_third",
    "Kwant.Continuum.field_unbound"
   ],
   "note": "momenta_accepted and normal_is_third in full.  The last clause fails for parameters whose name contains B, such as muB: the name B is then not bound (field_unbound says exactly when); two equal momenta are accepted"
  },
  {
   "property": "C141",
   "status": "partial",
   "theorems": [
    "Kwant.Fib.fib_no_fault_partial"
   ],
   "note": "No NULL pointer and no endless loop for any number of nodes.  The table of roots is proved not to overflow for heaps of up to 200 nodes; for more nodes this is open: without cascading cuts a rank is not bounded by the logarithm of the number of nodes"
  },
  {
   "property": "C142",
   "status": "proved",
   "theorems": [
    "Kwant.Fib.fib_min"
   ],
   "note": "pointer-level model of the heap; exact values"
  },
  {
   "property": "C143",
   "status": "partial",
   "theorems": [
    "Kwant.Fib.dijkstraF_spec_partial"
   ],
   "note": "In full up to 200 nodes; for more nodes unless roots_by_rank overflows, see C141"
  },
  {
   "property": "C144",
   "status": "proved",
   "theorems": [
    "Kwant.Noise.shotNoise_value",
    "Kwant.Noise.shotNoise_bounds",
    "Kwant.Noise.shotNoise_refused"
   ],
   "note": "exact arithmetic"
  },
  {
   "property": "C145",
   "status": "proved",
   "theorems": [
    "Kwant.Plot.interpolateCurrent_value",
    "Kwant.Plot.interpolateCurrent_succeeds",
    "Kwant.Plot.interpolateCurrent_border",
    "Kwant.Plot.currentGrid_facts",
    "Kwant.Plot.smoothCurrent_linear",
    "Kwant.Plot.interpolateCurrent_width",
    "Kwant.Plot.interpolate_refused"
   ],
   "note": "exact arithmetic.  The documentation says four times the shortest hopping; hoppings shorter than a thousandth of the longest are not counted"
  },
  {
   "property": "C146",
   "status": "proved",
   "theorems": [
    "Kwant.Plot.interpolateDensity_value",
    "Kwant.Plot.interpolateDensity_border",
    "Kwant.Plot.interpolateDensity_succeeds",
    "Kwant.Plot.densityGrid_facts",
    "Kwant.Plot.masked_zero",
    "Kwant.Plot.interpolateDensity_width",
    "Kwant.Plot.interpolate_refused"
   ],
   "note": "exact arithmetic; the k-d tree by its contract"
  },
  {
   "property": "C147",
   "status": "proved",
   "theorems": [
    "Kwant.Plot.smoothCurrent_divergence",
    "Kwant.Plot.smoothCurrent_conserved",
    "Kwant.Plot.lineField_divergence"
   ],
   "note": "about the function that is sampled on the grid, see C145"
  },
  {
   "property": "C148",
   "status": "partial",
   "theorems": [
    "Kwant.Plot.bump_integral",
    "Kwant.Plot.density_total_partial",
    "Kwant.Plot.current_flux_partial",
    "Kwant.Plot.current_flux_2d"
   ],
   "note": "The constants of the code are right for bumps of radius 1, but the field is scaled with the first power of 2/width in all dimensions.  The density is normalized in one dimension only (too large by the power d-1 of width/2), the current in two dimensions only (too large by the power d-2 of width/2): both theorems give the exact factor.  The test of the density checks only the slope of an error and has a wrong formula for the area"
  },
  {
   "property": "C149",
   "status": "proved",
   "theorems": [
    "Kwant.Gauge.C149_gauge",
    "Kwant.Gauge.C149_closed",
    "Kwant.Gauge.C149_constant",
    "Kwant.Gauge.C149_found",
    "Kwant.Gauge.C149_fields",
    "Kwant.Gauge.wire_phase"
   ],
   "note": "exact arithmetic; csgraph.connected_components and minimum_spanning_tree by their contracts; finalized infinite leads"
  },
  {
   "property": "C150",
   "status": "partial",
   "theorems": [
    "Kwant.Gauge.C150_sound_partial",
    "Kwant.Gauge.C150_complete_partial",
    "Kwant.Gauge.C150_exceptions",
    "Kwant.Gauge.C150_counterexample_star",
    "Kwant.Gauge.C150_counterexample_pair",
    "Kwant.Gauge.C150_counterexample_circle",
    "Kwant.Gauge.C150_counterexample_site",
    "Kwant.Gauge.wire_accepted"
   ],
   "note": "Sound if patches of different leads are not adjacent, complete if moreover the patches are connected and no site is at three patches.  Each condition is needed: three leads at one site are refused, a lead at a single padding site of another one is refused, a loop through three leads one of which starts at the padding of another one is accepted, and a region without interior hoppings raises an IndexError"
  },
  {
   "property": "C151",
   "status": "proved",
   "theorems": [
    "Kwant.Qsymm.C151_elements",
    "Kwant.Qsymm.C151_wave",
    "Kwant.Qsymm.C151_succeeds",
    "Kwant.Qsymm.C151_projection",
    "Kwant.Qsymm.C151_nonlinear"
   ],
   "note": "exact arithmetic (allclose is equality), real parameters; qsymm and sympy are modelled by the meaning of terms.  C151_nonlinear: a value that is not affine in a parameter is converted without an error to a wrong model"
  },
  {
   "property": "C152",
   "status": "proved",
   "theorems": [
    "Kwant.Qsymm.C152_amplitude",
    "Kwant.Qsymm.C152_hermitian",
    "Kwant.Qsymm.C152_roundtrip",
    "Kwant.Qsymm.C152_same",
    "Kwant.Qsymm.C152_order",
    "Kwant.Qsymm.chain_roundtrip"
   ],
   "note": "exact arithmetic; the coefficients by their meaning.  C152_order: the order of orbitals is not kept if the sublattices are sorted differently from the atoms"
  },
  {
   "property": "C153",
   "status": "partial",
   "theorems": [
    "Kwant.Qsymm.C152_succeeds",
    "Kwant.Qsymm.C152_refused"
   ],
   "note": "C152_succeeds gives the exact condition.  It differs from the property for terms without displacement between atoms whose coordinates differ by a lattice vector: these are refused although they are hoppings of the lattice (C152_refused)"
  },
  {
   "property": "C154",
   "status": "proved",
   "theorems": [
    "Kwant.Leads.C154_symmetric",
    "Kwant.Leads.C154_error",
    "Kwant.Leads.phsPlus_example",
    "Kwant.Leads.phsMinus_example"
   ],
   "note": "exact arithmetic: allclose is equality; QR and Schur decompositions by their contracts, shown to be satisfiable (exactNumP_phs)"
  },
  {
   "property": "C155",
   "status": "proved",
   "theorems": [
    "Kwant.Leads.C155_cut",
    "Kwant.Leads.C155_roots"
   ],
   "note": "exact arithmetic"
  },
  {
   "property": "C156",
   "status": "partial",
   "theorems": [
    "Kwant.Leads.C156_modes_partial",
    "Kwant.Leads.C156_error",
    "Kwant.Leads.C156_order",
    "Kwant.Leads.C156_example",
    "Kwant.Leads.C156_counterexample_speed",
    "Kwant.Leads.C156_counterexample_pi"
   ],
   "note": "Proved if at each momentum all modes of the same direction are equally fast and modes at momentum pi do not coexist with others.  Both conditions are needed, the property fails without them: degenerate momenta with different velocities are paired in the wrong order (velocities of outgoing modes are sorted in ascending order, instead of descending), and modes at -pi are paired with modes at 0; the returned modes are then no solutions with the stated velocities"
  },
  {
   "property": "C157",
   "status": "partial",
   "theorems": [
    "Kwant.Leads.C157_modes_partial",
    "Kwant.Leads.C157_error",
    "Kwant.Leads.C157_converse",
    "Kwant.Leads.C157_example",
    "Kwant.Leads.C157_counterexample"
   ],
   "note": "Proved if at each momentum all modes of the same direction are equally fast.  C157_converse: otherwise the returned modes are never proper modes, since the fastest incoming mode is paired with the slowest outgoing one at the same momentum; C157_counterexample is a lead with four chains"
  },
  {
   "property": "C158",
   "status": "partial",
   "theorems": [
    "Kwant.Leads.C158_modes_partial",
    "Kwant.Leads.C158_error",
    "Kwant.Leads.C158_order",
    "Kwant.Leads.C158_example_plus",
    "Kwant.Leads.C158_example_minus",
    "Kwant.Leads.C158_counterexample_speed",
    "Kwant.Leads.C158_counterexample_pi",
    "Kwant.Leads.C158_counterexample_odd"
   ],
   "note": "The error condition is proved in full.  The relations are proved if, at each momentum other than 0 and pi, all modes of the same direction are equally fast, and modes at pi only coexist with modes at 0.  Both conditions are needed, the property fails without them: partners are looked up at the mirror position, which is a mode with another velocity or the mode at -pi.  C158_counterexample_odd: a single mode at momentum 0 raises an AssertionError even if P^2 = 1"
  },
  {
   "property": "C159",
   "status": "partial",
   "theorems": [
    "Kwant.Leads.C159_modes_partial",
    "Kwant.Leads.C159_signs",
    "Kwant.Leads.C159_bdi",
    "Kwant.Leads.C159_example",
    "Kwant.Leads.C159_counterexample"
   ],
   "note": "Proved under the conditions of C156, with the sign in the relation for the outgoing modes, which is that of T^2 (P^2 T^2 at the momenta 0 and pi).  The documented relation thus holds if P^2 = T^2 = 1 (C159_bdi) and fails if P^2 = 1, T^2 = -1 (C159_counterexample)"
  },
  {
   "property": "C160",
   "status": "proved",
   "theorems": [
    "Kwant.Schur.C160_convert",
    "Kwant.Schur.C160_unchanged"
   ],
   "note": "exact arithmetic; real Schur forms in the canonical form that LAPACK documents"
  },
  {
   "property": "C161",
   "status": "partial",
   "theorems": [
    "Kwant.Schur.C161_order",
    "Kwant.Schur.C161_counterexample",
    "Kwant.Schur.C161_example"
   ],
   "note": "Proved in full if q is given.  With q = None, which is documented, a selection that separates a pair always raises AttributeError (C161_counterexample)"
  },
  {
   "property": "C162",
   "status": "proved",
   "theorems": [
    "Kwant.Schur.C162_convert",
    "Kwant.Schur.C162_unchanged",
    "Kwant.Schur.C162_example"
   ],
   "note": "exact arithmetic; gges and tgsen by their documented contracts, shown to be satisfiable"
  },
  {
   "property": "C163",
   "status": "partial",
   "theorems": [
    "Kwant.Schur.C163_order_partial",
    "Kwant.Schur.C163_counterexample",
    "Kwant.Schur.C163_example"
   ],
   "note": "Proved in full if q and z are given or no pair is separated.  Otherwise, with q or z None (as in kwant.physics.leads), the function always raises ValueError or LinAlgError (C163_counterexample)"
  },
  {
   "property": "C164",
   "status": "proved",
   "theorems": [
    "Kwant.Schur.C164_evecs",
    "Kwant.Schur.C164_example"
   ],
   "note": "exact arithmetic; trevc by its documented contract (packing of pairs in two columns), shown to be satisfiable"
  },
  {
   "property": "C165",
   "status": "proved",
   "theorems": [
    "Kwant.Schur.C165_evecs",
    "Kwant.Schur.C165_example"
   ],
   "note": "exact arithmetic; tgevc by its documented contract, shown to be satisfiable"
  },
  {
   "property": "C166",
   "status": "proved",
   "theorems": [
    "Kwant.SquareSelf.C166_unique",
    "Kwant.SquareSelf.C166_retarded",
    "Kwant.SquareSelf.C166_equation",
    "Kwant.SquareSelf.C166_negative",
    "Kwant.SquareSelf.C166_example"
   ],
   "note": "exact arithmetic.  C166_negative: for negative hopping, which is not excluded by the documentation, the function returns the advanced self-energy"
  },
  {
   "property": "C167",
   "status": "proved",
   "theorems": [
    "Kwant.Draw.C167_builder",
    "Kwant.Draw.C167_finalized",
    "Kwant.Draw.C167_example",
    "Kwant.Draw.C167_example_finalized",
    "Kwant.Draw.C167_no_builder",
    "Kwant.Draw.C167_counterexample"
   ],
   "note": "Positions are elements of any abelian group, with the law that a lead's translations move positions by its period. C167_no_builder, C167_counterexample: for an unfinalized builder with a lead that has no attribute builder sys_leads_pos raises AttributeError, although sys_leads_sites skips such leads."
  },
  {
   "property": "C168",
   "status": "proved",
   "theorems": [
    "Kwant.Draw.C168_builder",
    "Kwant.Draw.C168_finalized",
    "Kwant.Draw.C167_example",
    "Kwant.Draw.C167_example_finalized"
   ],
   "note": "As C167."
  },
  {
   "property": "C169",
   "status": "partial",
   "theorems": [
    "Kwant.Mumps.C169_solve_partial",
    "Kwant.Mumps.C169_example",
    "Kwant.Mumps.C169_counterexample_sparse",
    "Kwant.Mumps.C169_counterexample_reuse",
    "Kwant.Mumps.C169_counterexample_one"
   ],
   "note": "Proved for all histories in which no factorization with reuse_analysis=True failed, for sparse right hand sides, and for dense ones if no sparse one was solved before, except for right hand sides of shape (1, 1).  The property fails in each of the excluded cases: icntl[20] is never reset after a sparse right hand side, so that a dense one is not read at all (C169_counterexample_sparse); after a failed factorization that reuses the analysis the context still counts as factored and solve returns b (C169_counterexample_reuse); assert_fortran_matvec refuses all matrices of shape (1, 1) (C169_counterexample_one)"
  },
  {
   "property": "C170",
   "status": "proved",
   "theorems": [
    "Kwant.Mumps.C170_ends",
    "Kwant.Mumps.C170_result",
    "Kwant.Mumps.C169_example"
   ],
   "note": "arbitrary answers of MUMPS; ICNTL is an array of 32 bit integers, and ICNTL(14) starts at 20; C169_example has a history in which memory was not sufficient at first"
  },
  {
   "property": "C171",
   "status": "proved",
   "theorems": [
    "Kwant.Mumps.C171_restore"
   ],
   "note": ""
  },
  {
   "property": "C172",
   "status": "partial",
   "theorems": [
    "Kwant.Mumps.C172_partial",
    "Kwant.Mumps.C172_counterexample"
   ],
   "note": "Positive integers are accepted, fractions below 1 and unknown orderings are refused, and a refused call can only change nrhs.  The property fails otherwise: the test uses `and` in place of `or`, so that zero, negative numbers and fractions above 1 are accepted, and nrhs is changed even if the ordering is then refused (C172_counterexample)"
  },
  {
   "property": "C173",
   "status": "partial",
   "theorems": [
    "Kwant.Mumps.C173_solve_partial",
    "Kwant.Mumps.C173_example",
    "Kwant.Mumps.C173_counterexample"
   ],
   "note": "Proved for matrices with at least two rows, and for dense right hand sides if sparse_rhs was not used with the factorization before; it fails in the excluded cases (C173_counterexample), see C169"
  },
  {
   "property": "C174",
   "status": "proved",
   "theorems": [
    "Kwant.Spectrum.C174_curves",
    "Kwant.Spectrum.C174_surfaces",
    "Kwant.Spectrum.C174_succeeds",
    "Kwant.Spectrum.C174_example"
   ],
   "note": "the names of the two varied parameters are different; the plotting libraries by the meaning of their arguments"
  },
  {
   "property": "C175",
   "status": "proved",
   "theorems": [
    "Kwant.BandsPlot.C175_bands",
    "Kwant.BandsPlot.C175_momenta",
    "Kwant.Bands.C65_energies"
   ],
   "note": "exact arithmetic, contracts as for C65 (shown to be satisfiable there)"
  },
  {
   "property": "C176",
   "status": "proved",
   "theorems": [
    "Kwant.MapPlot.C176_square",
    "Kwant.MapPlot.C176_one",
    "Kwant.MapPlot.C176_mask",
    "Kwant.MapPlot.C176_corners",
    "Kwant.MapPlot.C176_example"
   ],
   "note": "exact arithmetic; griddata and cKDTree.query by their contracts, shown to be satisfiable; max is the position of the last pixel in directions with more than one pixel"
  },
  {
   "property": "C177",
   "status": "partial",
   "theorems": [
    "Kwant.MapPlot.C177_matplotlib_partial",
    "Kwant.MapPlot.C177_counterexample_one",
    "Kwant.MapPlot.C177_counterexample_plotly",
    "Kwant.MapPlot.C177_example_one",
    "Kwant.MapPlot.C176_example"
   ],
   "note": "Proved for matplotlib and pictures with at least two pixels in each direction.  The property fails otherwise: the border is divided by zero for pictures one pixel wide or high (C177_counterexample_one, C177_example_one); with plotly the numbers of columns and rows are exchanged and only a column in the middle is at its position (C177_counterexample_plotly, for every picture)"
  },
  {
   "property": "C178",
   "status": "partial",
   "theorems": [
    "Kwant.Percentile.C178_partial",
    "Kwant.Percentile.C178_counterexample"
   ],
   "note": "At most ceil((n-1)(100-percentile)/200) data are outside on each side, so the property holds up to rounding; it fails for few data with outliers (C178_counterexample)"
  },
  {
   "property": "C179",
   "status": "partial",
   "theorems": [
    "Kwant.Fam.C179_partial",
    "Kwant.Fam.C179_sites",
    "Kwant.Fam.C179_counterexample"
   ],
   "note": "Different data always give different families, and the order is proved in full.  The converse fails: norbs=1 and norbs=1.0 (both accepted and converted to 1), or 0.0 and -0.0 in a vector, give families that compare unequal (C179_counterexample); it is proved without these.  Python's repr of floats and strings by its documented properties"
  },
  {
   "property": "C180",
   "status": "partial",
   "theorems": [
    "Kwant.Fam.C180_partial",
    "Kwant.Fam.C180_counterexample"
   ],
   "note": "Proved if there is a name for each site of the basis, in particular if the name of the lattice is given.  With a sequence of fewer names sites of the basis are dropped without an error (C180_counterexample), unlike for norbs, whose length is checked"
  },
  {
   "property": "C181",
   "status": "partial",
   "theorems": [
    "Kwant.Lambdify.C181_partial",
    "Kwant.Lambdify.C181_counterexample"
   ],
   "note": "Proved for all expressions in which different symbols and applied functions have different names.  Others, such as A(x) + A(y), raise SyntaxError; and functions known to sympy, such as sin, become parameters that the caller has to supply (C181_counterexample)"
  },
  {
   "property": "C182",
   "status": "partial",
   "theorems": [
    "Kwant.Fortran.C182_partial",
    "Kwant.Fortran.C182_accepts",
    "Kwant.Fortran.C182_commonType",
    "Kwant.Fortran.C182_example",
    "Kwant.Fortran.C182_counterexample"
   ],
   "note": "Proved for arrays, lists and None.  It fails for objects that are no arrays but share their memory with the array numpy makes of them, such as array.array: the test `arr is not args[i]` takes the array for a copy, and the object is overwritten although overwrite=False (C182_counterexample)"
  },
  {
   "property": "C183",
   "status": "proved",
   "theorems": [
    "Kwant.Peierls.C183_succeeds",
    "Kwant.Peierls.C183_finite",
    "Kwant.Peierls.C183_infinite",
    "Kwant.Peierls.C183_leads",
    "Kwant.Peierls.C183_parameters",
    "Kwant.Peierls.C183_gauge",
    "Kwant.Peierls.Example.C183_counterexample"
   ],
   "note": "Combines the models of Builder, of finalization and of add_peierls_phase.  C183_counterexample also serves as the concrete case to which the theorems apply; what it shows to fail belongs to C184.  Names of lead parameters are assumed to be injective in the number of the lead for C183_gauge."
  },
  {
   "property": "C184",
   "status": "partial",
   "theorems": [
    "Kwant.Peierls.C184_discrete_partial",
    "Kwant.Peierls.Example.C183_counterexample"
   ],
   "note": "Proved for chiral symmetry and the conservation law, for all sites having the same number of orbitals.  It fails for particle-hole symmetry, which is copied although a scalar phase may break it (C183_counterexample): complex conjugation as particle-hole symmetry and a purely imaginary hopping."
  },
  {
   "property": "C185",
   "status": "proved",
   "theorems": [
    "Kwant.ConsLaw.C185_refused",
    "Kwant.ConsLaw.C185_projectors",
    "Kwant.ConsLaw.C185_integer",
    "Kwant.ConsLaw.C185_accepted",
    "Kwant.ConsLaw.C185_blocks",
    "Kwant.ConsLaw.C185_counterexample"
   ],
   "note": "Exact arithmetic; eigh, eigvalsh and round by contracts (exNum_ok shows that they can be met); agreement of eigvalsh with eigh is proved, not assumed.  C185_counterexample: the tolerance is relative, so a law with the eigenvalue 60000.25 is accepted."
  },
  {
   "property": "C186",
   "status": "proved",
   "theorems": [
    "Kwant.ClosestSite.C186_symmetry",
    "Kwant.ClosestSite.C186_finite",
    "Kwant.ClosestSite.C186_errors"
   ],
   "note": "Exact arithmetic; numpy routines by contracts as in C70/C71."
  },
  {
   "property": "C187",
   "status": "partial",
   "theorems": [
    "Kwant.Bands2D.C187_bands",
    "Kwant.Bands2D.C187_bloch",
    "Kwant.Bands2D.C187_box",
    "Kwant.Bands2D.C187_mask_partial",
    "Kwant.Bands2D.C187_refused",
    "Kwant.Bands2D.C187_succeeds",
    "Kwant.Bands2D.C187_example",
    "Kwant.Bands2D.exists_vor",
    "Kwant.Bands2D.C187_counterexample"
   ],
   "note": "Values, phases, refusals, termination, and that the box contains the zone and no point of the zone is masked: for all periods.  That the mask is exact and the box the smallest one: for periods with 2|a0.a1| <= min(|a0|^2,|a1|^2) (orthogonal, graphene...).  In general it is false: the coordinates of the neighbors are transformed with the transposed matrix (ta.dot(voronoi, transf) instead of transf.T), for the periods (1,-3),(0,1) momenta outside of the zone are plotted (C187_counterexample).  qhull by contract (exists_vor: it can be met)."
  },
  {
   "property": "C188",
   "status": "proved",
   "theorems": [
    "Kwant.Scatt.C188_modes",
    "Kwant.Scatt.C188_smatrix_reversed",
    "Kwant.Scatt.C188_smatrix_preserved",
    "Kwant.Scatt.C188_reversed",
    "Kwant.Scatt.C188_preserved",
    "Kwant.Scatt.C188_transmission_reversed",
    "Kwant.Scatt.C188_transmission_preserved",
    "Kwant.Scatt.C188_onsager",
    "Kwant.Scatt.C188_symmetric",
    "Kwant.Scatt.C188_real",
    "Kwant.Scatt.C188_opposite_energy",
    "Kwant.Scatt.exTimeReversal",
    "Kwant.Scatt.exParticleHole",
    "Kwant.Scatt.exChiral",
    "Kwant.Scatt.C188_example"
   ],
   "note": "The scattering matrix is the one that smatrix returns (C116).  exTimeReversal, exParticleHole, exChiral: symmetries of the example, with which all hypotheses are met (C188_example)."
  },
  {
   "property": "C189",
   "status": "proved",
   "theorems": [
    "Kwant.Scatt.C189_out_of_in",
    "Kwant.Scatt.C189_reversed",
    "Kwant.Scatt.C189_preserved",
    "Kwant.Scatt.C189_time_reversal",
    "Kwant.Scatt.C189_chiral",
    "Kwant.Scatt.C189_particle_hole",
    "Kwant.Scatt.C189_majorana",
    "Kwant.Scatt.C189_basis",
    "Kwant.Scatt.C189_computed_time_reversal",
    "Kwant.Scatt.C189_computed_chiral",
    "Kwant.Scatt.C189_computed_particle_hole",
    "Kwant.Scatt.C189_example",
    "Kwant.Leads.C189_modes",
    "Kwant.Leads.C189_lead_example"
   ],
   "note": "C189_reversed and C189_preserved are the general statements, with arbitrary partners and phases.  That the modes of a lead have the assumed form is proved for leads without conservation laws under the conditions of C156-C159 (C189_modes), so that the C189_computed theorems are about the modes that the code returns."
  },
  {
   "property": "C190",
   "status": "proved",
   "theorems": [
    "Kwant.Scatt.C190_zero",
    "Kwant.Scatt.C190_transmission",
    "Kwant.Scatt.C190_smatrix",
    "Kwant.Scatt.C190_example"
   ],
   "note": "Same contracts as C114 and C116.  C190_zero needs no projectors, only modes with definite values; C190_transmission and C190_smatrix are about the computed modes and what smatrix returns."
  },
  {
   "property": "C191",
   "status": "proved",
   "theorems": [
    "Kwant.Scatt.C191_waves",
    "Kwant.Scatt.C191_smatrix",
    "Kwant.Scatt.C191_exists",
    "Kwant.Scatt.C191_transmission",
    "Kwant.Scatt.C191_bound",
    "Kwant.Scatt.C191_many",
    "Kwant.Scatt.C191_returned",
    "Kwant.Scatt.C191_example"
   ],
   "note": "About the systems that the solvers see (Open); that attach_lead adds exactly these cells is the subject of C33 to C36, and their numbering does not matter by C192.  Same contracts as C116."
  },
  {
   "property": "C192",
   "status": "proved",
   "theorems": [
    "Kwant.Scatt.C192_waves",
    "Kwant.Scatt.C192_bound",
    "Kwant.Scatt.C192_smatrix",
    "Kwant.Scatt.C192_example",
    "Kwant.Scatt.reorder_ok"
   ],
   "note": "About the systems that the solvers see (Open).  Same contracts as C116."
  },
  {
   "property": "C193",
   "status": "proved",
   "theorems": [
    "Kwant.Value.C193_value",
    "Kwant.Value.C193_args",
    "Kwant.Value.C193_const",
    "Kwant.Value.C193_ok",
    "Kwant.Value.C193_names",
    "Kwant.Value.C193_example",
    "Kwant.Value.C193_counterexample_const",
    "Kwant.Value.C193_counterexample_cache",
    "Kwant.Value.C193_counterexample_matrix"
   ],
   "note": "Exact arithmetic in any field; printing by sympy and parsing by Python are the identity, expand distributes products over sums.  The counterexamples show that the exceptions are needed: a parameter _const_0 is overwritten, a parameter _cache_0 hides a matrix, [[1/(x+1)]] raises TypeError whereas the scalar 1/(x+1) is accepted."
  },
  {
   "property": "C194",
   "status": "proved",
   "theorems": [
    "Kwant.Scatt.C194_transmission",
    "Kwant.Scatt.C194_smatrix",
    "Kwant.Scatt.C194_example"
   ],
   "note": "Same contracts as C116 and C190; leads with a nonzero hopping.  C194_smatrix is about what smatrix returns."
  },
  {
   "property": "C195",
   "status": "proved",
   "theorems": [
    "Kwant.Call.C195_new",
    "Kwant.Call.C195_old",
    "Kwant.Call.C195_accepts",
    "Kwant.Call.C195_documented",
    "Kwant.Call.C195_defaults",
    "Kwant.Call.C195_rewrap",
    "Kwant.Call.C195_modes_selfenergy",
    "Kwant.Call.C195_deprecate",
    "Kwant.Call.accepts_keyword",
    "Kwant.Call.C195_example",
    "Kwant.Call.C195_counterexample"
   ],
   "note": "The binding of arguments by Python is modelled for all signatures.  C195_accepts says for every signature which call is made; C195_counterexample: a function of the old API whose second parameter is called params (or that takes *params) is not recognized, the lead raises TypeError."
  },
  {
   "property": "C196",
   "status": "proved",
   "theorems": [
    "Kwant.Schur.C196_schur",
    "Kwant.Schur.C196_inverse",
    "Kwant.Schur.C196_errors",
    "Kwant.Schur.C196_ignored",
    "Kwant.Schur.schur_eliminates",
    "Kwant.Schur.schur_inverse",
    "Kwant.Schur.C196_example",
    "Kwant.Schur.C196_counterexample"
   ],
   "note": "Contract: the documentation of MUMPS (Schur.Lib).  If MUMPS reports failure (singular A_JJ, indices out of range or repeated) no exception is raised and uninitialized memory is returned (C196_counterexample); ooc and pivot_tol are accepted but ignored (C196_ignored)."
  },
  {
   "property": "C197",
   "status": "proved",
   "theorems": [
    "Kwant.Scatt.C197_waves",
    "Kwant.Scatt.C197_states",
    "Kwant.Scatt.C197_smatrix",
    "Kwant.Scatt.C197_same",
    "Kwant.Scatt.C197_transmission",
    "Kwant.Scatt.C197_bound",
    "Kwant.Scatt.C197_density",
    "Kwant.Scatt.C197_gauge",
    "Kwant.Scatt.C197_returned",
    "Kwant.Scatt.C197_example",
    "Kwant.Scatt.gauge_ok"
   ],
   "note": "About the systems that the solvers see (Open).  Same contracts as C116; C197_returned is about what smatrix returns."
  },
  {
   "property": "C198",
   "status": "proved",
   "theorems": [
    "Kwant.PlotSites.C198_sites",
    "Kwant.PlotSites.C198_default_colors",
    "Kwant.PlotSites.C198_example",
    "Kwant.PlotSites.C198_counterexample_builder",
    "Kwant.PlotSites.C198_counterexample_finalized"
   ],
   "note": "Contract: how a matplotlib collection cycles through its lists and what to_rgba_array accepts.  Per-site 'no symbol' is covered in 2d, and together with colours that are no numbers; otherwise kwant fails (C198_counterexample_finalized).  Path symbols are not modelled."
  },
  {
   "property": "C199",
   "status": "proved",
   "theorems": [
    "Kwant.PlotSites.C199_hoppings",
    "Kwant.PlotSites.C199_leads",
    "Kwant.PlotSites.C199_fade",
    "Kwant.PlotSites.C199_inherit",
    "Kwant.PlotSites.C199_inherit_symbol",
    "Kwant.PlotSites.C199_example",
    "Kwant.PlotSites.C199_counterexample"
   ],
   "note": "Same contract as C198.  lead_site_symbol 'no symbol', also when inherited from site_symbol, makes plot fail (C199_counterexample); an RGB tuple as hop_color is taken for numbers if there are three hoppings."
  },
  {
   "property": "C200",
   "status": "proved",
   "theorems": [
    "Kwant.RefLen.C200_nn",
    "Kwant.RefLen.C200_shortest",
    "Kwant.RefLen.C200_units",
    "Kwant.RefLen.C200_shift",
    "Kwant.RefLen.C200_example",
    "Kwant.RefLen.C200_counterexample"
   ],
   "note": "Exact real arithmetic.  Systems without hoppings violate the documentation: C200_counterexample."
  },
  {
   "property": "C201",
   "status": "proved",
   "theorems": [
    "Kwant.Solver.C201_solve",
    "Kwant.Solver.C201_smatrix",
    "Kwant.Solver.C201_greens",
    "Kwant.Solver.C201_wave",
    "Kwant.Solver.C201_ldos",
    "Kwant.Solver.C201_unitary",
    "Kwant.Solver.C201_example",
    "Kwant.Solver.C201_unitary_example"
   ],
   "note": "exact arithmetic; the factorization of SciPy (SuperLU or UMFPACK) is a parameter with the contract that it either fails or solves all right-hand sides; for the scattering matrix the restriction of C94 is part of the statement"
  },
  {
   "property": "C202",
   "status": "proved",
   "theorems": [
    "Kwant.Stream.C202_lines",
    "Kwant.Stream.C202_thickest",
    "Kwant.Stream.C202_ends",
    "Kwant.Stream.C202_ends_bytes",
    "Kwant.Stream.C202_blending",
    "Kwant.Stream.C202_positions",
    "Kwant.Stream.C202_image",
    "Kwant.Stream.C202_background",
    "Kwant.Stream.C202_example",
    "Kwant.Stream.C202_counterexample_image",
    "Kwant.Stream.C202_counterexample_bgcolor"
   ],
   "note": "Exact real arithmetic.  Contract: where matplotlib puts pixels, and that Axes.set_axis_bgcolor does not exist in matplotlib 3.2.2 or newer.  The two sRGB functions are inverse to each other except in an interval of length 7e-8 (the hypotheses Gap and LinearGap)."
  },
  {
   "property": "C203",
   "status": "proved",
   "theorems": [
    "Kwant.Output.C203_engine",
    "Kwant.Output.C203_matplotlib",
    "Kwant.Output.C203_plotly",
    "Kwant.Output.C203_none",
    "Kwant.Output.C203_stream",
    "Kwant.Output.C203_example",
    "Kwant.Output.C203_counterexample"
   ],
   "note": "Calls whose other arguments are valid; only the output is modelled here.  The documentation of streamplot and current (the figure is returned) is false: C203_counterexample."
  },
  {
   "property": "C204",
   "status": "proved",
   "theorems": [
    "Kwant.GaugeSparse.C204_assign",
    "Kwant.GaugeSparse.C204_structure",
    "Kwant.GaugeSparse.C204_add",
    "Kwant.GaugeSparse.C204_shift",
    "Kwant.GaugeSparse.C204_distance",
    "Kwant.GaugeSparse.C204_unsorted",
    "Kwant.GaugeSparse.C204_example"
   ],
   "note": "Contract: scipy's conversion to CSR gives canonical matrices (no duplicates, sorted columns).  Weights are elements of an arbitrary type (CSR) or commutative monoid (COO)."
  },
  {
   "property": "C205",
   "status": "partial",
   "theorems": [
    "Kwant.ScalarPlot.C205_limits",
    "Kwant.ScalarPlot.C205_positions_partial",
    "Kwant.ScalarPlot.C205_counterexample",
    "Kwant.ScalarPlot.C205_example"
   ],
   "note": "The code violates the property for fields that are not square (C205_counterexample, for all of them); proved for square ones.  Contract: plotly draws z[j][i] at (x[i], y[j])."
  }
 ]
}
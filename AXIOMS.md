# Axioms of the theorems of the manifest

Generated by `tools/gen_axioms.py` from `#print axioms`.

* Classical.choice, Quot.sound, propext: 666 theorems
* Quot.sound, propext: 34 theorems
* none: 2 theorems
* propext: 14 theorems

| property | theorem | axioms |
|---|---|---|
| C01 | `Kwant.Graph.C01_outNeighbors` | Classical.choice, Quot.sound, propext |
| C02 | `Kwant.Graph.C02_inNeighbors` | Classical.choice, Quot.sound, propext |
| C02 | `Kwant.Graph.C02_disabled` | Classical.choice, Quot.sound, propext |
| C03 | `Kwant.Graph.C03_specId_injective` | Classical.choice, Quot.sound, propext |
| C03 | `Kwant.Graph.C03_edgeId` | Classical.choice, Quot.sound, propext |
| C03 | `Kwant.Graph.C03_surjective` | Classical.choice, Quot.sound, propext |
| C03 | `Kwant.Graph.C03_outEdgeIds` | Classical.choice, Quot.sound, propext |
| C04 | `Kwant.Graph.C04_toList` | Classical.choice, Quot.sound, propext |
| C05 | `Kwant.Graph.C05_hasEdge` | Classical.choice, Quot.sound, propext |
| C05 | `Kwant.Graph.C05_edgeIds` | Classical.choice, Quot.sound, propext |
| C05 | `Kwant.Graph.C05_idsOf_increasing` | Classical.choice, Quot.sound, propext |
| C05 | `Kwant.Graph.C05_doubly_dangling` | Classical.choice, Quot.sound, propext |
| C06 | `Kwant.Graph.C06_tail_partial` | Classical.choice, Quot.sound, propext |
| C06 | `Kwant.Graph.C06_tail_no_empty_partial` | Classical.choice, Quot.sound, propext |
| C06 | `Kwant.Graph.C06_counterexample` | Quot.sound, propext |
| C07 | `Kwant.Graph.C07_edges` | Classical.choice, Quot.sound, propext |
| C07 | `Kwant.Graph.C07_addEdge` | Classical.choice, Quot.sound, propext |
| C07 | `Kwant.Graph.C07_numNodes_mono` | Classical.choice, Quot.sound, propext |
| C07 | `Kwant.Graph.C07_nodes` | Classical.choice, Quot.sound, propext |
| C07 | `Kwant.Graph.C07_setNumNodes` | Quot.sound, propext |
| C07 | `Kwant.Graph.C07_compressed` | Classical.choice, Quot.sound, propext |
| C08 | `Kwant.Graph.C08_pickle` | Classical.choice, Quot.sound, propext |
| C10 | `Kwant.TransSym.C10_lawful` | Classical.choice, Quot.sound, propext |
| C10 | `Kwant.TransSym.C10_actHop` | Classical.choice, Quot.sound, propext |
| C10 | `Kwant.TransSym.C10_position` | Classical.choice, Quot.sound, propext |
| C11 | `Kwant.C11_toFd` | propext |
| C11 | `Kwant.TransSym.C10_lawful` | Classical.choice, Quot.sound, propext |
| C11 | `Kwant.noSymmetry_lawful` | Quot.sound, propext |
| C12 | `Kwant.TransSym.C12_reversed` | Classical.choice, Quot.sound, propext |
| C20 | `Kwant.Builder.C20_wellformed` | Classical.choice, Quot.sound, propext |
| C20 | `Kwant.Builder.Reachable.wf` | Classical.choice, Quot.sound, propext |
| C21 | `Kwant.Builder.C21_setSite` | Classical.choice, Quot.sound, propext |
| C22 | `Kwant.Builder.C22_setHop` | Classical.choice, Quot.sound, propext |
| C23 | `Kwant.Builder.C23_hermitian` | Classical.choice, Quot.sound, propext |
| C23 | `Kwant.Builder.C23_get_iff_contains` | Classical.choice, Quot.sound, propext |
| C24 | `Kwant.Builder.C24_setHop` | Classical.choice, Quot.sound, propext |
| C24 | `Kwant.Builder.C24_del` | Classical.choice, Quot.sound, propext |
| C25 | `Kwant.Builder.C25_delSite` | Classical.choice, Quot.sound, propext |
| C26 | `Kwant.Builder.C26_delHop` | Classical.choice, Quot.sound, propext |
| C27 | `Kwant.Builder.C27_enumeration` | Classical.choice, Quot.sound, propext |
| C28 | `Kwant.Builder.C28_neighbors` | Classical.choice, Quot.sound, propext |
| C29 | `Kwant.Builder.C29_eradicate` | Classical.choice, Quot.sound, propext |
| C30 | `Kwant.Builder.C30_update` | Classical.choice, Quot.sound, propext |
| C30 | `Kwant.Builder.C30_leads` | Classical.choice, Quot.sound, propext |
| C31 | `Kwant.Builder.C31_expand` | Quot.sound, propext |
| C31 | `Kwant.Builder.C31_leaves` | propext |
| C31 | `Kwant.Builder.C31_reachable` | Quot.sound, propext |
| C31 | `Kwant.Builder.C31_setSites` | Quot.sound, propext |
| C31 | `Kwant.Builder.C31_setHops` | Quot.sound, propext |
| C32 | `Kwant.Builder.C32_substitute` | Classical.choice, Quot.sound, propext |
| C32 | `Kwant.Builder.C32_compose` | Classical.choice, Quot.sound, propext |
| C32 | `Kwant.Builder.C32_substituted_partial` | Classical.choice, Quot.sound, propext |
| C32 | `Kwant.Builder.C32_substituted_collision` | Classical.choice, Quot.sound, propext |
| C32 | `Kwant.Builder.C32_substituted_values` | Classical.choice, Quot.sound, propext |
| C32 | `Kwant.Builder.C32_counterexample` | Quot.sound, propext |
| C33 | `Kwant.Builder.C33_hoppingKind` | Classical.choice, Quot.sound, propext |
| C33 | `Kwant.Builder.C33_hoppingKind_orbit` | Classical.choice, Quot.sound, propext |
| C34 | `Kwant.Builder.C34_fill` | Classical.choice, Quot.sound, propext |
| C34 | `Kwant.Builder.C34_failure` | Classical.choice, Quot.sound, propext |
| C34 | `Kwant.Builder.C34_shape` | Classical.choice, Quot.sound, propext |
| C34 | `Kwant.Builder.C34_terminates` | Classical.choice, Quot.sound, propext |
| C34 | `Kwant.Builder.C34_succeeds` | Classical.choice, Quot.sound, propext |
| C35 | `Kwant.Builder.C35_attach` | Classical.choice, Quot.sound, propext |
| C35 | `Kwant.Builder.C35_attach_partial` | Classical.choice, Quot.sound, propext |
| C35 | `Kwant.Builder.C35_attach_free` | Quot.sound, propext |
| C35 | `Kwant.Builder.C35_counterexample` | Classical.choice, Quot.sound, propext |
| C36 | `Kwant.Builder.C36_extend_partial` | Classical.choice, Quot.sound, propext |
| C36 | `Kwant.Builder.C36_extend_connected_partial` | Classical.choice, Quot.sound, propext |
| C36 | `Kwant.Builder.C36_counterexample` | Quot.sound, propext |
| C40 | `Kwant.Final.C40_sites` | Classical.choice, Quot.sound, propext |
| C41 | `Kwant.Final.C41_hamiltonian` | Classical.choice, Quot.sound, propext |
| C41 | `Kwant.Final.C41_exclusive` | propext |
| C42 | `Kwant.Final.C42_hermitian` | Classical.choice, Quot.sound, propext |
| C43 | `Kwant.System.C43_getOrbs` | Classical.choice, Quot.sound, propext |
| C43 | `Kwant.System.C43_none` | Classical.choice, Quot.sound, propext |
| C44 | `Kwant.System.C44_dense` | Classical.choice, Quot.sound, propext |
| C44 | `Kwant.System.C44_sparse` | Classical.choice, Quot.sound, propext |
| C44 | `Kwant.System.C44_success` | Classical.choice, Quot.sound, propext |
| C44 | `Kwant.System.C44_builder` | Classical.choice, Quot.sound, propext |
| C44 | `Kwant.System.finite_lawful` | Classical.choice, Quot.sound, propext |
| C44 | `Kwant.System.infinite_lawful` | Classical.choice, Quot.sound, propext |
| C45 | `Kwant.System.C45_hermitian` | Classical.choice, Quot.sound, propext |
| C46 | `Kwant.Final.C46_layout` | Classical.choice, Quot.sound, propext |
| C46 | `Kwant.Final.C92_succeeds_iff` | Classical.choice, Quot.sound, propext |
| C46 | `Kwant.Final.line_lawful` | Classical.choice, Quot.sound, propext |
| C46 | `Kwant.Final.line_ordInv` | Classical.choice, Quot.sound, propext |
| C47 | `Kwant.Final.C47_hamiltonian` | Classical.choice, Quot.sound, propext |
| C47 | `Kwant.Final.C47_hermitian` | Classical.choice, Quot.sound, propext |
| C48 | `Kwant.System.C48_precalculate` | Classical.choice, Quot.sound, propext |
| C48 | `Kwant.System.C48_succeeds` | Classical.choice, Quot.sound, propext |
| C49 | `Kwant.System.C49_ignored_partial` | Classical.choice, Quot.sound, propext |
| C49 | `Kwant.System.C49_counterexample` | Classical.choice, Quot.sound, propext |
| C50 | `Kwant.Oper.C50_sites` | Classical.choice, Quot.sound, propext |
| C50 | `Kwant.Oper.C50_sites_all` | Classical.choice, Quot.sound, propext |
| C50 | `Kwant.Oper.C50_hops_partial` | Classical.choice, Quot.sound, propext |
| C50 | `Kwant.Oper.C50_counterexample` | Classical.choice, Quot.sound, propext |
| C51 | `Kwant.Oper.C51_shape_partial` | propext |
| C51 | `Kwant.Oper.C51_square_partial` | propext |
| C51 | `Kwant.Oper.C51_counterexample` | Quot.sound, propext |
| C52 | `Kwant.Oper.C52_blocks` | Classical.choice, Quot.sound, propext |
| C52 | `Kwant.Oper.C52_succeeds` | Classical.choice, Quot.sound, propext |
| C53 | `Kwant.Solver.C53_transmission_partial` | Classical.choice, Quot.sound, propext |
| C53 | `Kwant.Solver.C53_returns` | Classical.choice, Quot.sound, propext |
| C53 | `Kwant.Solver.C53_center_partial` | Classical.choice, Quot.sound, propext |
| C53 | `Kwant.Solver.C53_counterexample` | Classical.choice, Quot.sound, propext |
| C54 | `Kwant.Solver.C54_conductance` | Classical.choice, Quot.sound, propext |
| C54 | `Kwant.Solver.C54_rows` | Classical.choice, Quot.sound, propext |
| C54 | `Kwant.Solver.C54_succeeds` | Classical.choice, Quot.sound, propext |
| C55 | `Kwant.Solver.C55_slice` | Classical.choice, Quot.sound, propext |
| C55 | `Kwant.Solver.C55_absent` | Quot.sound, propext |
| C55 | `Kwant.Solver.C55_partition` | Classical.choice, Quot.sound, propext |
| C55 | `Kwant.Solver.C55_blocks` | Classical.choice, Quot.sound, propext |
| C55 | `Kwant.Solver.C55_block_transmission` | Classical.choice, Quot.sound, propext |
| C56 | `Kwant.Oper.C56_call_partial` | Classical.choice, Quot.sound, propext |
| C56 | `Kwant.Oper.C56_act_partial` | Classical.choice, Quot.sound, propext |
| C56 | `Kwant.Oper.C56_act_call_partial` | Classical.choice, Quot.sound, propext |
| C56 | `Kwant.Oper.C56_sum` | Quot.sound, propext |
| C56 | `Kwant.Oper.C56_tocoo_partial` | Classical.choice, Quot.sound, propext |
| C56 | `Kwant.Oper.goodRanges_of_fams` | Classical.choice, Quot.sound, propext |
| C56 | `Kwant.Oper.spin_regular` | Classical.choice, Quot.sound, propext |
| C56 | `Kwant.Oper.spin_call` | Classical.choice, Quot.sound, propext |
| C56 | `Kwant.Oper.C56_counterexample` | Classical.choice, Quot.sound, propext |
| C56 | `Kwant.Oper.C56_tocoo_counterexample` | Classical.choice, Quot.sound, propext |
| C57 | `Kwant.Oper.C57_current_partial` | Classical.choice, Quot.sound, propext |
| C57 | `Kwant.Oper.C57_source_partial` | Classical.choice, Quot.sound, propext |
| C57 | `Kwant.Oper.C57_continuity_partial` | Classical.choice, Quot.sound, propext |
| C57 | `Kwant.Oper.C57_antisymmetric` | Classical.choice, Quot.sound, propext |
| C57 | `Kwant.Oper.C57_counterexample` | Classical.choice, Quot.sound, propext |
| C58 | `Kwant.Oper.C58_bind` | Quot.sound, propext |
| C58 | `Kwant.Oper.C58_bind_fails` | Quot.sound, propext |
| C60 | `Kwant.DiscSym.C60_accepted` | Classical.choice, Quot.sound, propext |
| C60 | `Kwant.DiscSym.C60_exact` | Classical.choice, Quot.sound, propext |
| C60 | `Kwant.DiscSym.C60_exact_few` | Classical.choice, Quot.sound, propext |
| C61 | `Kwant.Rmt.C61_gaussian` | Classical.choice, Quot.sound, propext |
| C61 | `Kwant.Rmt.C61_complete` | Classical.choice, Quot.sound, propext |
| C62 | `Kwant.Gauge.C62_loops` | Classical.choice, Quot.sound, propext |
| C62 | `Kwant.Gauge.C62_finite` | Classical.choice, Quot.sound, propext |
| C62 | `Kwant.Gauge.C62_gauge` | Classical.choice, Quot.sound, propext |
| C62 | `Kwant.Gauge.C62_closed` | Classical.choice, Quot.sound, propext |
| C62 | `Kwant.Gauge.C62_constant` | Classical.choice, Quot.sound, propext |
| C63 | `Kwant.Dijkstra.C63_dijkstra` | Classical.choice, Quot.sound, propext |
| C63 | `Kwant.Dijkstra.C63_links` | Classical.choice, Quot.sound, propext |
| C63 | `Kwant.Dijkstra.C63_predecessors` | Classical.choice, Quot.sound, propext |
| C63 | `Kwant.Dijkstra.C63_unreachable` | Classical.choice, Quot.sound, propext |
| C64 | `Kwant.Gauge.C64_partial` | Classical.choice, Quot.sound, propext |
| C64 | `Kwant.Gauge.C64_counterexample` | Classical.choice, Quot.sound, propext |
| C65 | `Kwant.Bands.C65_energies` | Classical.choice, Quot.sound, propext |
| C65 | `Kwant.Bands.C65_velocities` | Classical.choice, Quot.sound, propext |
| C65 | `Kwant.Bands.C65_degenerate` | Classical.choice, Quot.sound, propext |
| C66 | `Kwant.Wrap.C66_bloch` | Classical.choice, Quot.sound, propext |
| C66 | `Kwant.Wrap.C66_no_momenta` | Classical.choice, Quot.sound, propext |
| C67 | `Kwant.Digest.C67_exact` | Classical.choice, Quot.sound, propext |
| C67 | `Kwant.Digest.C67_uniform` | Classical.choice, Quot.sound, propext |
| C67 | `Kwant.Digest.C67_gauss` | Classical.choice, Quot.sound, propext |
| C67 | `Kwant.Digest.C67_fair` | Classical.choice, Quot.sound, propext |
| C70 | `Kwant.LLL.C70_lll` | Classical.choice, Quot.sound, propext |
| C70 | `Kwant.LLL.C70_terminates` | Classical.choice, Quot.sound, propext |
| C71 | `Kwant.Cvp.C71_closest` | Classical.choice, Quot.sound, propext |
| C71 | `Kwant.Cvp.C71_terminates` | Classical.choice, Quot.sound, propext |
| C71 | `Kwant.Cvp.C71_groups` | Classical.choice, Quot.sound, propext |
| C71 | `Kwant.Lat.C71_groups_terminates` | Classical.choice, Quot.sound, propext |
| C72 | `Kwant.Voronoi.C72_voronoi` | Classical.choice, Quot.sound, propext |
| C72 | `Kwant.Voronoi.C72_reduced` | Classical.choice, Quot.sound, propext |
| C72 | `Kwant.Voronoi.C72_irredundant` | Classical.choice, Quot.sound, propext |
| C72 | `Kwant.Voronoi.C72_terminates` | Classical.choice, Quot.sound, propext |
| C80 | `Kwant.Common.C80_memoize_partial` | Quot.sound, propext |
| C80 | `Kwant.Common.key_hashable` | Quot.sound, propext |
| C80 | `Kwant.Common.C80_counterexample` | propext |
| C81 | `Kwant.Common.C81_getParameters` | Classical.choice, Quot.sound, propext |
| C82 | `Kwant.Common.C82_interleave` | Quot.sound, propext |
| C90 | `Kwant.Final.C90_leads` | Classical.choice, Quot.sound, propext |
| C91 | `Kwant.Final.C91_parameters` | Classical.choice, Quot.sound, propext |
| C91 | `Kwant.Final.C91_sufficient` | Classical.choice, Quot.sound, propext |
| C92 | `Kwant.Final.C92_succeeds_iff` | Classical.choice, Quot.sound, propext |
| C92 | `Kwant.Final.line_ordInv` | Classical.choice, Quot.sound, propext |
| C93 | `Kwant.System.C93_sparse` | Quot.sound, propext |
| C93 | `Kwant.System.C93_sparseFull` | Quot.sound, propext |
| C94 | `Kwant.Solver.C94_lists` | Quot.sound, propext |
| C94 | `Kwant.Solver.C94_kept_partial` | Classical.choice, Quot.sound, propext |
| C94 | `Kwant.Solver.C94_counterexample` | Classical.choice, Quot.sound, propext |
| C94 | `Kwant.Solver.deadSys_ok` | Classical.choice, Quot.sound, propext |
| C94 | `Kwant.Solver.live_kept` | Classical.choice, Quot.sound, propext |
| C95 | `Kwant.Solver.C95_scattering` | Classical.choice, Quot.sound, propext |
| C95 | `Kwant.Solver.C95_other_blocks` | Classical.choice, Quot.sound, propext |
| C95 | `Kwant.Solver.C95_complete` | Classical.choice, Quot.sound, propext |
| C95 | `Kwant.Solver.C95_smatrix_partial` | Classical.choice, Quot.sound, propext |
| C95 | `Kwant.Solver.C95_greens` | Classical.choice, Quot.sound, propext |
| C95 | `Kwant.Solver.live_solves` | Classical.choice, Quot.sound, propext |
| C95 | `Kwant.Solver.live_greens` | Classical.choice, Quot.sound, propext |
| C95 | `Kwant.Solver.liveSys_ok` | Classical.choice, Quot.sound, propext |
| C96 | `Kwant.Solver.C96_conservation` | Classical.choice, Quot.sound, propext |
| C96 | `Kwant.Solver.green_example` | Classical.choice, Quot.sound, propext |
| C97 | `Kwant.Solver.C97_wave_function` | Classical.choice, Quot.sound, propext |
| C97 | `Kwant.Solver.C97_ldos` | Classical.choice, Quot.sound, propext |
| C68 | `Kwant.DiscSym.C68_canonical_partial` | Classical.choice, Quot.sound, propext |
| C68 | `Kwant.DiscSym.C68_counterexample` | Classical.choice, Quot.sound, propext |
| C69 | `Kwant.DiscSym.C69_validate` | Classical.choice, Quot.sound, propext |
| C100 | `Kwant.DiscSym.C100_projectors_partial` | Classical.choice, Quot.sound, propext |
| C100 | `Kwant.DiscSym.C100_accepts` | Classical.choice, Quot.sound, propext |
| C100 | `Kwant.DiscSym.C100_counterexample` | Classical.choice, Quot.sound, propext |
| C98 | `Kwant.Rmt.C98_circular` | Classical.choice, Quot.sound, propext |
| C98 | `Kwant.Rmt.C98_charge` | Classical.choice, Quot.sound, propext |
| C98 | `Kwant.Rmt.C98_charge_DIII` | Classical.choice, Quot.sound, propext |
| C98 | `Kwant.Rmt.pfaffian_unique` | Classical.choice, Quot.sound, propext |
| C98 | `Kwant.Rmt.C98_returns` | Classical.choice, Quot.sound, propext |
| C99 | `Kwant.Bands.C99_curvatures_partial` | Classical.choice, Quot.sound, propext |
| C99 | `Kwant.Bands.C99_counterexample` | Classical.choice, Quot.sound, propext |
| C101 | `Kwant.Gauge.C101_gauge` | Classical.choice, Quot.sound, propext |
| C101 | `Kwant.Gauge.C101_closed` | Classical.choice, Quot.sound, propext |
| C101 | `Kwant.Gauge.C101_constant` | Classical.choice, Quot.sound, propext |
| C101 | `Kwant.Gauge.C101_translation` | Classical.choice, Quot.sound, propext |
| C101 | `Kwant.Gauge.C101_exception` | Classical.choice, Quot.sound, propext |
| C101 | `Kwant.Gauge.C101_counterexample` | Classical.choice, Quot.sound, propext |
| C102 | `Kwant.Shape.C102_rounds` | Classical.choice, Quot.sound, propext |
| C102 | `Kwant.Shape.C102_shape` | Classical.choice, Quot.sound, propext |
| C102 | `Kwant.Shape.C102_exception` | Classical.choice, Quot.sound, propext |
| C102 | `Kwant.Shape.C102_terminates` | Classical.choice, Quot.sound, propext |
| C102 | `Kwant.Shape.C102_nodup` | Classical.choice, Quot.sound, propext |
| C102 | `Kwant.Shape.C102_duplicates` | Classical.choice, Quot.sound, propext |
| C102 | `Kwant.Lat.C102_lattice` | Classical.choice, Quot.sound, propext |
| C102 | `Kwant.Lat.C102_fd` | Classical.choice, Quot.sound, propext |
| C102 | `Kwant.Lat.C102_everything` | Classical.choice, Quot.sound, propext |
| C102 | `Kwant.Lat.C102_deltas_partial` | Classical.choice, Quot.sound, propext |
| C102 | `Kwant.Lat.C102_generate` | Classical.choice, Quot.sound, propext |
| C102 | `Kwant.Lat.C102_square` | Classical.choice, Quot.sound, propext |
| C102 | `Kwant.Lat.C102_triangular` | Classical.choice, Quot.sound, propext |
| C102 | `Kwant.Lat.C102_counterexample` | Classical.choice, Quot.sound, propext |
| C103 | `Kwant.Lat.C103_init` | Classical.choice, Quot.sound, propext |
| C103 | `Kwant.Lat.C103_nClosest` | Classical.choice, Quot.sound, propext |
| C103 | `Kwant.Lat.C103_closest` | Classical.choice, Quot.sound, propext |
| C103 | `Kwant.Lat.C103_terminates` | Classical.choice, Quot.sound, propext |
| C103 | `Kwant.Lat.C103_pos_injective` | Classical.choice, Quot.sound, propext |
| C103 | `Kwant.Lat.C103_roundtrip` | Classical.choice, Quot.sound, propext |
| C105 | `Kwant.Shape.C105_symmetric` | Classical.choice, Quot.sound, propext |
| C105 | `Kwant.Lat.C105_cylinder` | Classical.choice, Quot.sound, propext |
| C105 | `Kwant.Lat.C105_invariant` | Classical.choice, Quot.sound, propext |
| C105 | `Kwant.Lat.C105_wire` | Classical.choice, Quot.sound, propext |
| C106 | `Kwant.Lat.C106_hasSubgroup` | Classical.choice, Quot.sound, propext |
| C106 | `Kwant.Lat.C106_subgroup` | Classical.choice, Quot.sound, propext |
| C106 | `Kwant.Lat.C106_subSym` | Classical.choice, Quot.sound, propext |
| C107 | `Kwant.Lat.C107_outcome` | Classical.choice, Quot.sound, propext |
| C107 | `Kwant.Lat.C107_succeeds` | Classical.choice, Quot.sound, propext |
| C107 | `Kwant.Lat.C107_data` | Classical.choice, Quot.sound, propext |
| C107 | `Kwant.Lat.C107_act` | Classical.choice, Quot.sound, propext |
| C104 | `Kwant.Lat.C104_neighbors` | Classical.choice, Quot.sound, propext |
| C104 | `Kwant.Lat.C104_once` | Classical.choice, Quot.sound, propext |
| C104 | `Kwant.Lat.C104_terminates` | Classical.choice, Quot.sound, propext |
| C104 | `Kwant.Lat.C104_total` | Classical.choice, Quot.sound, propext |
| C108 | `Kwant.Leads.C108_bloch` | Classical.choice, Quot.sound, propext |
| C108 | `Kwant.Leads.C108_columns` | Classical.choice, Quot.sound, propext |
| C108 | `Kwant.Leads.C108_forced` | Classical.choice, Quot.sound, propext |
| C110 | `Kwant.Leads.C110_dyson` | Classical.choice, Quot.sound, propext |
| C110 | `Kwant.Leads.C110_green` | Classical.choice, Quot.sound, propext |
| C111 | `Kwant.Leads.C111_broadening` | Classical.choice, Quot.sound, propext |
| C111 | `Kwant.Leads.C111_posSemidef` | Classical.choice, Quot.sound, propext |
| C109 | `Kwant.Leads.C109_modes` | Classical.choice, Quot.sound, propext |
| C109 | `Kwant.Leads.C109_error` | Classical.choice, Quot.sound, propext |
| C109 | `Kwant.Leads.C109_current` | Classical.choice, Quot.sound, propext |
| C109 | `Kwant.Leads.C109_initialised` | Classical.choice, Quot.sound, propext |
| C109 | `Kwant.Leads.C109_uninitialised` | Classical.choice, Quot.sound, propext |
| C109 | `Kwant.Leads.C109_example` | Classical.choice, Quot.sound, propext |
| C109 | `Kwant.Leads.velK_deriv` | Classical.choice, Quot.sound, propext |
| C112 | `Kwant.Solver.C112_flux` | Classical.choice, Quot.sound, propext |
| C112 | `Kwant.Solver.C112_unitary` | Classical.choice, Quot.sound, propext |
| C112 | `Kwant.Solver.C112_sum_rule` | Classical.choice, Quot.sound, propext |
| C112 | `Kwant.Solver.C112_example` | Classical.choice, Quot.sound, propext |
| C113 | `Kwant.Leads.C113_block` | Classical.choice, Quot.sound, propext |
| C113 | `Kwant.Leads.C113_block_sym` | Classical.choice, Quot.sound, propext |
| C113 | `Kwant.Leads.C113_error` | Classical.choice, Quot.sound, propext |
| C113 | `Kwant.Leads.C113_error_sym` | Classical.choice, Quot.sound, propext |
| C113 | `Kwant.Leads.C113_example` | Classical.choice, Quot.sound, propext |
| C114 | `Kwant.Leads.C114_modes` | Classical.choice, Quot.sound, propext |
| C114 | `Kwant.Leads.C114_error` | Classical.choice, Quot.sound, propext |
| C114 | `Kwant.Leads.C114_sym_ok` | Classical.choice, Quot.sound, propext |
| C114 | `Kwant.Leads.C114_example` | Classical.choice, Quot.sound, propext |
| C114 | `Kwant.Leads.C114_zero_block` | Classical.choice, Quot.sound, propext |
| C114 | `Kwant.Leads.C114_tr_order` | Classical.choice, Quot.sound, propext |
| C114 | `Kwant.Leads.C114_sign` | Classical.choice, Quot.sound, propext |
| C115 | `Kwant.Leads.C115_modes` | Classical.choice, Quot.sound, propext |
| C115 | `Kwant.Leads.C115_selfenergy` | Classical.choice, Quot.sound, propext |
| C115 | `Kwant.Leads.C115_unique` | Classical.choice, Quot.sound, propext |
| C115 | `Kwant.Leads.C115_necessary` | Classical.choice, Quot.sound, propext |
| C115 | `Kwant.Leads.C115_dyson` | Classical.choice, Quot.sound, propext |
| C115 | `Kwant.Leads.C115_example` | Classical.choice, Quot.sound, propext |
| C116 | `Kwant.Scatt.C116_smatrix` | Classical.choice, Quot.sound, propext |
| C116 | `Kwant.Scatt.C116_unique` | Classical.choice, Quot.sound, propext |
| C116 | `Kwant.Scatt.C116_unitary` | Classical.choice, Quot.sound, propext |
| C116 | `Kwant.Scatt.C116_regular` | Classical.choice, Quot.sound, propext |
| C116 | `Kwant.Scatt.C116_succeeds` | Classical.choice, Quot.sound, propext |
| C116 | `Kwant.Scatt.C116_transmission` | Classical.choice, Quot.sound, propext |
| C116 | `Kwant.Scatt.C116_example` | Classical.choice, Quot.sound, propext |
| C117 | `Kwant.Scatt.C117_response` | Classical.choice, Quot.sound, propext |
| C117 | `Kwant.Scatt.C117_unique` | Classical.choice, Quot.sound, propext |
| C117 | `Kwant.Scatt.C117_fisher_lee` | Classical.choice, Quot.sound, propext |
| C117 | `Kwant.Scatt.C117_exists` | Classical.choice, Quot.sound, propext |
| C117 | `Kwant.Scatt.C117_succeeds` | Classical.choice, Quot.sound, propext |
| C117 | `Kwant.Scatt.C117_example` | Classical.choice, Quot.sound, propext |
| C118 | `Kwant.Scatt.C118_wave_function` | Classical.choice, Quot.sound, propext |
| C118 | `Kwant.Scatt.C118_unique` | Classical.choice, Quot.sound, propext |
| C118 | `Kwant.Scatt.C118_ldos` | Classical.choice, Quot.sound, propext |
| C118 | `Kwant.Scatt.C118_response` | Classical.choice, Quot.sound, propext |
| C118 | `Kwant.Scatt.C118_example` | Classical.choice, Quot.sound, propext |
| C119 | `Kwant.Kpm.C119_moments_dos` | Classical.choice, Quot.sound, propext |
| C119 | `Kwant.Kpm.C119_moments_op` | Classical.choice, Quot.sound, propext |
| C119 | `Kwant.Kpm.C119_calls` | Classical.choice, Quot.sound, propext |
| C119 | `Kwant.Kpm.C119_history` | Classical.choice, Quot.sound, propext |
| C119 | `Kwant.Kpm.C119_init` | Classical.choice, Quot.sound, propext |
| C119 | `Kwant.Kpm.C119_counterexample` | Classical.choice, Quot.sound, propext |
| C119 | `Kwant.Kpm.C119_example` | Classical.choice, Quot.sound, propext |
| C120 | `Kwant.Kpm.C120_rescale` | Classical.choice, Quot.sound, propext |
| C120 | `Kwant.Kpm.C120_refused` | Classical.choice, Quot.sound, propext |
| C120 | `Kwant.Kpm.C120_again` | Classical.choice, Quot.sound, propext |
| C120 | `Kwant.Kpm.C120_counterexample` | Classical.choice, Quot.sound, propext |
| C121 | `Kwant.Kpm.C121_energies` | Classical.choice, Quot.sound, propext |
| C121 | `Kwant.Kpm.C121_densities` | Classical.choice, Quot.sound, propext |
| C122 | `Kwant.Kpm.C122_integrate_dos` | Classical.choice, Quot.sound, propext |
| C122 | `Kwant.Kpm.C122_integrate_op` | Classical.choice, Quot.sound, propext |
| C122 | `Kwant.Kpm.C122_trace` | Classical.choice, Quot.sound, propext |
| C122 | `Kwant.Kpm.C122_total` | Classical.choice, Quot.sound, propext |
| C122 | `Kwant.Kpm.C122_kernel` | Classical.choice, Quot.sound, propext |
| C122 | `Kwant.Kpm.C122_example` | Classical.choice, Quot.sound, propext |
| C123 | `Kwant.Kpm.C123_positive` | Classical.choice, Quot.sound, propext |
| C123 | `Kwant.Kpm.C123_densities` | Classical.choice, Quot.sound, propext |
| C123 | `Kwant.Kpm.C123_counterexample` | Classical.choice, Quot.sound, propext |
| C127 | `Kwant.Oper.C127_dict` | Quot.sound, propext |
| C127 | `Kwant.Oper.C127_single` | Classical.choice, Quot.sound, propext |
| C127 | `Kwant.Oper.C127_hopping` | Quot.sound, propext |
| C127 | `Kwant.Oper.C127_onsite_block` | Quot.sound, propext |
| C124 | `Kwant.Kpm.C124_moments` | Classical.choice, Quot.sound, propext |
| C124 | `Kwant.Kpm.C124_trace` | Classical.choice, Quot.sound, propext |
| C124 | `Kwant.Kpm.C124_calls` | Classical.choice, Quot.sound, propext |
| C124 | `Kwant.Kpm.C124_call` | Classical.choice, Quot.sound, propext |
| C124 | `Kwant.Kpm.C124_retarded` | Classical.choice, Quot.sound, propext |
| C124 | `Kwant.Kpm.C124_init` | Classical.choice, Quot.sound, propext |
| C124 | `Kwant.Kpm.C124_example` | Classical.choice, Quot.sound, propext |
| C124 | `Kwant.Kpm.C124_counterexample` | Classical.choice, Quot.sound, propext |
| C125 | `Kwant.Kpm.C125_orbitals` | Classical.choice, Quot.sound, propext |
| C125 | `Kwant.Kpm.C125_local` | Classical.choice, Quot.sound, propext |
| C125 | `Kwant.Kpm.C125_ldos` | Classical.choice, Quot.sound, propext |
| C125 | `Kwant.Kpm.C125_all` | Classical.choice, Quot.sound, propext |
| C125 | `Kwant.Kpm.C125_random` | Classical.choice, Quot.sound, propext |
| C125 | `Kwant.Kpm.C125_random_mean` | Classical.choice, Quot.sound, propext |
| C126 | `Kwant.Kpm.C126_velocity` | Classical.choice, Quot.sound, propext |
| C126 | `Kwant.Kpm.C126_ehrenfest` | Classical.choice, Quot.sound, propext |
| C126 | `Kwant.Kpm.C126_positions` | Classical.choice, Quot.sound, propext |
| C126 | `Kwant.Kpm.C126_direction` | Classical.choice, Quot.sound, propext |
| C126 | `Kwant.Kpm.C126_fermi` | Classical.choice, Quot.sound, propext |
| C126 | `Kwant.Kpm.C126_example` | Classical.choice, Quot.sound, propext |
| C128 | `Kwant.Continuum.discretize_operator` | Classical.choice, Quot.sound, propext |
| C128 | `Kwant.Continuum.expression_spec` | Classical.choice, Quot.sound, propext |
| C129 | `Kwant.Continuum.discretize_offsets` | Classical.choice, Quot.sound, propext |
| C129 | `Kwant.Continuum.discretize_onsite` | Classical.choice, Quot.sound, propext |
| C130 | `Kwant.Continuum.wanted_spec` | Classical.choice, Quot.sound, propext |
| C130 | `Kwant.Continuum.kept_hoppings` | Classical.choice, Quot.sound, propext |
| C130 | `Kwant.Continuum.firstPos_neg` | Classical.choice, Quot.sound, propext |
| C131 | `Kwant.Continuum.discretize_hermitian` | Classical.choice, Quot.sound, propext |
| C131 | `Kwant.Continuum.exRashba_hermitian` | Classical.choice, Quot.sound, propext |
| C131 | `Kwant.Continuum.exKAK_hermitian` | Classical.choice, Quot.sound, propext |
| C131 | `Kwant.Continuum.kAk_hopping` | Classical.choice, Quot.sound, propext |
| C132 | `Kwant.Continuum.build_operator` | Classical.choice, Quot.sound, propext |
| C132 | `Kwant.Continuum.build_hermitian` | Classical.choice, Quot.sound, propext |
| C132 | `Kwant.Continuum.build_element` | Classical.choice, Quot.sound, propext |
| C132 | `Kwant.Continuum.discretize_ok` | Classical.choice, Quot.sound, propext |
| C132 | `Kwant.Continuum.build_scalar` | Classical.choice, Quot.sound, propext |
| C132 | `Kwant.Continuum.build_lattice` | Classical.choice, Quot.sound, propext |
| C133 | `Kwant.Continuum.continuum_limit` | Classical.choice, Quot.sound, propext |
| C133 | `Kwant.Continuum.exKAK_smooth` | Classical.choice, Quot.sound, propext |
| C134 | `Kwant.Continuum.dispersion` | Classical.choice, Quot.sound, propext |
| C134 | `Kwant.Continuum.dispersion_square` | Classical.choice, Quot.sound, propext |
| C135 | `Kwant.Continuum.symbolic_reserved` | Classical.choice, Quot.sound, propext |
| C135 | `Kwant.Continuum.coords_default` | Classical.choice, Quot.sound, propext |
| C135 | `Kwant.Continuum.coords_explicit` | Classical.choice, Quot.sound, propext |
| C135 | `Kwant.Continuum.build_scalar` | Classical.choice, Quot.sound, propext |
| C135 | `Kwant.Continuum.build_lattice` | Classical.choice, Quot.sound, propext |
| C135 | `Kwant.Continuum.build_refused` | Classical.choice, Quot.sound, propext |
| C135 | `Kwant.Continuum.build_oblique_accepted` | Classical.choice, Quot.sound, propext |
| C135 | `Kwant.Continuum.negative_power_dropped` | Classical.choice, Quot.sound, propext |
| C136 | `Kwant.Continuum.landau_substituted` | Classical.choice, Quot.sound, propext |
| C136 | `Kwant.Continuum.landau_commutator` | Classical.choice, Quot.sound, propext |
| C136 | `Kwant.Continuum.ladder_commutator` | Classical.choice, Quot.sound, propext |
| C136 | `Kwant.Continuum.evaluate_ladder_term` | Classical.choice, Quot.sound, propext |
| C136 | `Kwant.Continuum.ladder_net` | Classical.choice, Quot.sound, propext |
| C137 | `Kwant.Continuum.landau_evaluates` | Classical.choice, Quot.sound, propext |
| C137 | `Kwant.Continuum.evaluate_no_error` | Classical.choice, Quot.sound, propext |
| C137 | `Kwant.Continuum.evaluate_error` | Classical.choice, Quot.sound, propext |
| C138 | `Kwant.Continuum.landau_operator_partial` | Classical.choice, Quot.sound, propext |
| C138 | `Kwant.Continuum.landau_operator_transposed` | Classical.choice, Quot.sound, propext |
| C138 | `Kwant.Continuum.landau_kz_sign` | Classical.choice, Quot.sound, propext |
| C138 | `Kwant.Continuum.exLandau_hermitian` | Classical.choice, Quot.sound, propext |
| C138 | `Kwant.Continuum.exLandau_symmetric` | Classical.choice, Quot.sound, propext |
| C139 | `Kwant.Continuum.landau_hermitian` | Classical.choice, Quot.sound, propext |
| C139 | `Kwant.Continuum.landau_operator_negative` | Classical.choice, Quot.sound, propext |
| C139 | `Kwant.Continuum.landau_negative_one_orbital_partial` | Classical.choice, Quot.sound, propext |
| C139 | `Kwant.Continuum.landau_linear_sign` | Classical.choice, Quot.sound, propext |
| C139 | `Kwant.Continuum.dirac_right` | Classical.choice, Quot.sound, propext |
| C139 | `Kwant.Continuum.dirac_built` | Classical.choice, Quot.sound, propext |
| C140 | `Kwant.Continuum.momenta_accepted` | Classical.choice, Quot.sound, propext |
| C140 | `Kwant.Continuum.normal_is_third` | Quot.sound, propext |
| C140 | `Kwant.Continuum.field_unbound` | Classical.choice, Quot.sound, propext |
| C141 | `Kwant.Fib.fib_no_fault_partial` | Classical.choice, Quot.sound, propext |
| C142 | `Kwant.Fib.fib_min` | Classical.choice, Quot.sound, propext |
| C143 | `Kwant.Fib.dijkstraF_spec_partial` | Classical.choice, Quot.sound, propext |
| C144 | `Kwant.Noise.shotNoise_value` | Classical.choice, Quot.sound, propext |
| C144 | `Kwant.Noise.shotNoise_bounds` | Classical.choice, Quot.sound, propext |
| C144 | `Kwant.Noise.shotNoise_refused` | Classical.choice, Quot.sound, propext |
| C145 | `Kwant.Plot.interpolateCurrent_value` | Classical.choice, Quot.sound, propext |
| C145 | `Kwant.Plot.interpolateCurrent_succeeds` | Classical.choice, Quot.sound, propext |
| C145 | `Kwant.Plot.interpolateCurrent_border` | Classical.choice, Quot.sound, propext |
| C145 | `Kwant.Plot.currentGrid_facts` | Classical.choice, Quot.sound, propext |
| C145 | `Kwant.Plot.smoothCurrent_linear` | Classical.choice, Quot.sound, propext |
| C145 | `Kwant.Plot.interpolateCurrent_width` | Classical.choice, Quot.sound, propext |
| C145 | `Kwant.Plot.interpolate_refused` | Classical.choice, Quot.sound, propext |
| C146 | `Kwant.Plot.interpolateDensity_value` | Classical.choice, Quot.sound, propext |
| C146 | `Kwant.Plot.interpolateDensity_border` | Classical.choice, Quot.sound, propext |
| C146 | `Kwant.Plot.interpolateDensity_succeeds` | Classical.choice, Quot.sound, propext |
| C146 | `Kwant.Plot.densityGrid_facts` | Classical.choice, Quot.sound, propext |
| C146 | `Kwant.Plot.masked_zero` | Classical.choice, Quot.sound, propext |
| C146 | `Kwant.Plot.interpolateDensity_width` | Classical.choice, Quot.sound, propext |
| C146 | `Kwant.Plot.interpolate_refused` | Classical.choice, Quot.sound, propext |
| C147 | `Kwant.Plot.smoothCurrent_divergence` | Classical.choice, Quot.sound, propext |
| C147 | `Kwant.Plot.smoothCurrent_conserved` | Classical.choice, Quot.sound, propext |
| C147 | `Kwant.Plot.lineField_divergence` | Classical.choice, Quot.sound, propext |
| C148 | `Kwant.Plot.bump_integral` | Classical.choice, Quot.sound, propext |
| C148 | `Kwant.Plot.density_total_partial` | Classical.choice, Quot.sound, propext |
| C148 | `Kwant.Plot.current_flux_partial` | Classical.choice, Quot.sound, propext |
| C148 | `Kwant.Plot.current_flux_2d` | Classical.choice, Quot.sound, propext |
| C149 | `Kwant.Gauge.C149_gauge` | Classical.choice, Quot.sound, propext |
| C149 | `Kwant.Gauge.C149_closed` | Classical.choice, Quot.sound, propext |
| C149 | `Kwant.Gauge.C149_constant` | Classical.choice, Quot.sound, propext |
| C149 | `Kwant.Gauge.C149_found` | Classical.choice, Quot.sound, propext |
| C149 | `Kwant.Gauge.C149_fields` | Classical.choice, Quot.sound, propext |
| C149 | `Kwant.Gauge.wire_phase` | Classical.choice, Quot.sound, propext |
| C150 | `Kwant.Gauge.C150_sound_partial` | Classical.choice, Quot.sound, propext |
| C150 | `Kwant.Gauge.C150_complete_partial` | Classical.choice, Quot.sound, propext |
| C150 | `Kwant.Gauge.C150_exceptions` | Classical.choice, Quot.sound, propext |
| C150 | `Kwant.Gauge.C150_counterexample_star` | Classical.choice, Quot.sound, propext |
| C150 | `Kwant.Gauge.C150_counterexample_pair` | Classical.choice, Quot.sound, propext |
| C150 | `Kwant.Gauge.C150_counterexample_circle` | Classical.choice, Quot.sound, propext |
| C150 | `Kwant.Gauge.C150_counterexample_site` | Classical.choice, Quot.sound, propext |
| C150 | `Kwant.Gauge.wire_accepted` | Classical.choice, Quot.sound, propext |
| C151 | `Kwant.Qsymm.C151_elements` | Classical.choice, Quot.sound, propext |
| C151 | `Kwant.Qsymm.C151_wave` | Classical.choice, Quot.sound, propext |
| C151 | `Kwant.Qsymm.C151_succeeds` | Classical.choice, Quot.sound, propext |
| C151 | `Kwant.Qsymm.C151_projection` | Classical.choice, Quot.sound, propext |
| C151 | `Kwant.Qsymm.C151_nonlinear` | Classical.choice, Quot.sound, propext |
| C152 | `Kwant.Qsymm.C152_amplitude` | Classical.choice, Quot.sound, propext |
| C152 | `Kwant.Qsymm.C152_hermitian` | Classical.choice, Quot.sound, propext |
| C152 | `Kwant.Qsymm.C152_roundtrip` | Classical.choice, Quot.sound, propext |
| C152 | `Kwant.Qsymm.C152_same` | Classical.choice, Quot.sound, propext |
| C152 | `Kwant.Qsymm.C152_order` | Classical.choice, Quot.sound, propext |
| C152 | `Kwant.Qsymm.chain_roundtrip` | Classical.choice, Quot.sound, propext |
| C153 | `Kwant.Qsymm.C152_succeeds` | Classical.choice, Quot.sound, propext |
| C153 | `Kwant.Qsymm.C152_refused` | Classical.choice, Quot.sound, propext |
| C154 | `Kwant.Leads.C154_symmetric` | Classical.choice, Quot.sound, propext |
| C154 | `Kwant.Leads.C154_error` | Classical.choice, Quot.sound, propext |
| C154 | `Kwant.Leads.phsPlus_example` | Classical.choice, Quot.sound, propext |
| C154 | `Kwant.Leads.phsMinus_example` | Classical.choice, Quot.sound, propext |
| C155 | `Kwant.Leads.C155_cut` | Classical.choice, Quot.sound, propext |
| C155 | `Kwant.Leads.C155_roots` | Classical.choice, Quot.sound, propext |
| C156 | `Kwant.Leads.C156_modes_partial` | Classical.choice, Quot.sound, propext |
| C156 | `Kwant.Leads.C156_error` | Classical.choice, Quot.sound, propext |
| C156 | `Kwant.Leads.C156_order` | Classical.choice, Quot.sound, propext |
| C156 | `Kwant.Leads.C156_example` | Classical.choice, Quot.sound, propext |
| C156 | `Kwant.Leads.C156_counterexample_speed` | Classical.choice, Quot.sound, propext |
| C156 | `Kwant.Leads.C156_counterexample_pi` | Classical.choice, Quot.sound, propext |
| C157 | `Kwant.Leads.C157_modes_partial` | Classical.choice, Quot.sound, propext |
| C157 | `Kwant.Leads.C157_error` | Classical.choice, Quot.sound, propext |
| C157 | `Kwant.Leads.C157_converse` | Classical.choice, Quot.sound, propext |
| C157 | `Kwant.Leads.C157_example` | Classical.choice, Quot.sound, propext |
| C157 | `Kwant.Leads.C157_counterexample` | Classical.choice, Quot.sound, propext |
| C158 | `Kwant.Leads.C158_modes_partial` | Classical.choice, Quot.sound, propext |
| C158 | `Kwant.Leads.C158_error` | Classical.choice, Quot.sound, propext |
| C158 | `Kwant.Leads.C158_order` | Classical.choice, Quot.sound, propext |
| C158 | `Kwant.Leads.C158_example_plus` | Classical.choice, Quot.sound, propext |
| C158 | `Kwant.Leads.C158_example_minus` | Classical.choice, Quot.sound, propext |
| C158 | `Kwant.Leads.C158_counterexample_speed` | Classical.choice, Quot.sound, propext |
| C158 | `Kwant.Leads.C158_counterexample_pi` | Classical.choice, Quot.sound, propext |
| C158 | `Kwant.Leads.C158_counterexample_odd` | Classical.choice, Quot.sound, propext |
| C159 | `Kwant.Leads.C159_modes_partial` | Classical.choice, Quot.sound, propext |
| C159 | `Kwant.Leads.C159_signs` | Classical.choice, Quot.sound, propext |
| C159 | `Kwant.Leads.C159_bdi` | Classical.choice, Quot.sound, propext |
| C159 | `Kwant.Leads.C159_example` | Classical.choice, Quot.sound, propext |
| C159 | `Kwant.Leads.C159_counterexample` | Classical.choice, Quot.sound, propext |
| C160 | `Kwant.Schur.C160_convert` | Classical.choice, Quot.sound, propext |
| C160 | `Kwant.Schur.C160_unchanged` | Classical.choice, Quot.sound, propext |
| C161 | `Kwant.Schur.C161_order` | Classical.choice, Quot.sound, propext |
| C161 | `Kwant.Schur.C161_counterexample` | Classical.choice, Quot.sound, propext |
| C161 | `Kwant.Schur.C161_example` | Classical.choice, Quot.sound, propext |
| C162 | `Kwant.Schur.C162_convert` | Classical.choice, Quot.sound, propext |
| C162 | `Kwant.Schur.C162_unchanged` | Classical.choice, Quot.sound, propext |
| C162 | `Kwant.Schur.C162_example` | Classical.choice, Quot.sound, propext |
| C163 | `Kwant.Schur.C163_order_partial` | Classical.choice, Quot.sound, propext |
| C163 | `Kwant.Schur.C163_counterexample` | Classical.choice, Quot.sound, propext |
| C163 | `Kwant.Schur.C163_example` | Classical.choice, Quot.sound, propext |
| C164 | `Kwant.Schur.C164_evecs` | Classical.choice, Quot.sound, propext |
| C164 | `Kwant.Schur.C164_example` | Classical.choice, Quot.sound, propext |
| C165 | `Kwant.Schur.C165_evecs` | Classical.choice, Quot.sound, propext |
| C165 | `Kwant.Schur.C165_example` | Classical.choice, Quot.sound, propext |
| C166 | `Kwant.SquareSelf.C166_unique` | Classical.choice, Quot.sound, propext |
| C166 | `Kwant.SquareSelf.C166_retarded` | Classical.choice, Quot.sound, propext |
| C166 | `Kwant.SquareSelf.C166_equation` | Classical.choice, Quot.sound, propext |
| C166 | `Kwant.SquareSelf.C166_negative` | Classical.choice, Quot.sound, propext |
| C166 | `Kwant.SquareSelf.C166_example` | Classical.choice, Quot.sound, propext |
| C167 | `Kwant.Draw.C167_builder` | Classical.choice, Quot.sound, propext |
| C167 | `Kwant.Draw.C167_finalized` | Classical.choice, Quot.sound, propext |
| C167 | `Kwant.Draw.C167_example` | Classical.choice, Quot.sound, propext |
| C167 | `Kwant.Draw.C167_example_finalized` | Classical.choice, Quot.sound, propext |
| C167 | `Kwant.Draw.C167_no_builder` | Classical.choice, Quot.sound, propext |
| C167 | `Kwant.Draw.C167_counterexample` | Classical.choice, Quot.sound, propext |
| C168 | `Kwant.Draw.C168_builder` | Classical.choice, Quot.sound, propext |
| C168 | `Kwant.Draw.C168_finalized` | Classical.choice, Quot.sound, propext |
| C168 | `Kwant.Draw.C167_example` | Classical.choice, Quot.sound, propext |
| C168 | `Kwant.Draw.C167_example_finalized` | Classical.choice, Quot.sound, propext |
| C169 | `Kwant.Mumps.C169_solve_partial` | Classical.choice, Quot.sound, propext |
| C169 | `Kwant.Mumps.C169_example` | Quot.sound, propext |
| C169 | `Kwant.Mumps.C169_counterexample_sparse` | Quot.sound, propext |
| C169 | `Kwant.Mumps.C169_counterexample_reuse` | Quot.sound, propext |
| C169 | `Kwant.Mumps.C169_counterexample_one` | Quot.sound, propext |
| C170 | `Kwant.Mumps.C170_ends` | Classical.choice, Quot.sound, propext |
| C170 | `Kwant.Mumps.C170_result` | Classical.choice, Quot.sound, propext |
| C170 | `Kwant.Mumps.C169_example` | Quot.sound, propext |
| C171 | `Kwant.Mumps.C171_restore` | Classical.choice, Quot.sound, propext |
| C172 | `Kwant.Mumps.C172_partial` | Classical.choice, Quot.sound, propext |
| C172 | `Kwant.Mumps.C172_counterexample` | Classical.choice, Quot.sound, propext |
| C173 | `Kwant.Mumps.C173_solve_partial` | Classical.choice, Quot.sound, propext |
| C173 | `Kwant.Mumps.C173_example` | Quot.sound, propext |
| C173 | `Kwant.Mumps.C173_counterexample` | Quot.sound, propext |
| C174 | `Kwant.Spectrum.C174_curves` | Classical.choice, Quot.sound, propext |
| C174 | `Kwant.Spectrum.C174_surfaces` | Classical.choice, Quot.sound, propext |
| C174 | `Kwant.Spectrum.C174_succeeds` | Classical.choice, Quot.sound, propext |
| C174 | `Kwant.Spectrum.C174_example` | propext |
| C175 | `Kwant.BandsPlot.C175_bands` | Classical.choice, Quot.sound, propext |
| C175 | `Kwant.BandsPlot.C175_momenta` | Classical.choice, Quot.sound, propext |
| C175 | `Kwant.Bands.C65_energies` | Classical.choice, Quot.sound, propext |
| C176 | `Kwant.MapPlot.C176_square` | Classical.choice, Quot.sound, propext |
| C176 | `Kwant.MapPlot.C176_one` | Classical.choice, Quot.sound, propext |
| C176 | `Kwant.MapPlot.C176_mask` | Classical.choice, Quot.sound, propext |
| C176 | `Kwant.MapPlot.C176_corners` | Classical.choice, Quot.sound, propext |
| C176 | `Kwant.MapPlot.C176_example` | Classical.choice, Quot.sound, propext |
| C177 | `Kwant.MapPlot.C177_matplotlib_partial` | Classical.choice, Quot.sound, propext |
| C177 | `Kwant.MapPlot.C177_counterexample_one` | Classical.choice, Quot.sound, propext |
| C177 | `Kwant.MapPlot.C177_counterexample_plotly` | Classical.choice, Quot.sound, propext |
| C177 | `Kwant.MapPlot.C177_example_one` | Classical.choice, Quot.sound, propext |
| C177 | `Kwant.MapPlot.C176_example` | Classical.choice, Quot.sound, propext |
| C178 | `Kwant.Percentile.C178_partial` | Classical.choice, Quot.sound, propext |
| C178 | `Kwant.Percentile.C178_counterexample` | Classical.choice, Quot.sound, propext |
| C179 | `Kwant.Fam.C179_partial` | Classical.choice, Quot.sound, propext |
| C179 | `Kwant.Fam.C179_sites` | Classical.choice, Quot.sound, propext |
| C179 | `Kwant.Fam.C179_counterexample` | Classical.choice, Quot.sound, propext |
| C180 | `Kwant.Fam.C180_partial` | Classical.choice, Quot.sound, propext |
| C180 | `Kwant.Fam.C180_counterexample` | Classical.choice, Quot.sound, propext |
| C181 | `Kwant.Lambdify.C181_partial` | Classical.choice, Quot.sound, propext |
| C181 | `Kwant.Lambdify.C181_counterexample` | Classical.choice, Quot.sound, propext |
| C182 | `Kwant.Fortran.C182_partial` | Classical.choice, Quot.sound, propext |
| C182 | `Kwant.Fortran.C182_accepts` | Classical.choice, Quot.sound, propext |
| C182 | `Kwant.Fortran.C182_commonType` | Quot.sound, propext |
| C182 | `Kwant.Fortran.C182_example` | Classical.choice, Quot.sound, propext |
| C182 | `Kwant.Fortran.C182_counterexample` | Classical.choice, Quot.sound, propext |
| C183 | `Kwant.Peierls.C183_succeeds` | Classical.choice, Quot.sound, propext |
| C183 | `Kwant.Peierls.C183_finite` | Classical.choice, Quot.sound, propext |
| C183 | `Kwant.Peierls.C183_infinite` | Classical.choice, Quot.sound, propext |
| C183 | `Kwant.Peierls.C183_leads` | Classical.choice, Quot.sound, propext |
| C183 | `Kwant.Peierls.C183_parameters` | Classical.choice, Quot.sound, propext |
| C183 | `Kwant.Peierls.C183_gauge` | Classical.choice, Quot.sound, propext |
| C183 | `Kwant.Peierls.Example.C183_counterexample` | Classical.choice, Quot.sound, propext |
| C184 | `Kwant.Peierls.C184_discrete_partial` | Classical.choice, Quot.sound, propext |
| C184 | `Kwant.Peierls.Example.C183_counterexample` | Classical.choice, Quot.sound, propext |
| C185 | `Kwant.ConsLaw.C185_refused` | Classical.choice, Quot.sound, propext |
| C185 | `Kwant.ConsLaw.C185_projectors` | Classical.choice, Quot.sound, propext |
| C185 | `Kwant.ConsLaw.C185_integer` | Classical.choice, Quot.sound, propext |
| C185 | `Kwant.ConsLaw.C185_accepted` | Classical.choice, Quot.sound, propext |
| C185 | `Kwant.ConsLaw.C185_blocks` | Classical.choice, Quot.sound, propext |
| C185 | `Kwant.ConsLaw.C185_counterexample` | Classical.choice, Quot.sound, propext |
| C186 | `Kwant.ClosestSite.C186_symmetry` | Classical.choice, Quot.sound, propext |
| C186 | `Kwant.ClosestSite.C186_finite` | Classical.choice, Quot.sound, propext |
| C186 | `Kwant.ClosestSite.C186_errors` | Classical.choice, Quot.sound, propext |
| C187 | `Kwant.Bands2D.C187_bands` | Classical.choice, Quot.sound, propext |
| C187 | `Kwant.Bands2D.C187_bloch` | Classical.choice, Quot.sound, propext |
| C187 | `Kwant.Bands2D.C187_box` | Classical.choice, Quot.sound, propext |
| C187 | `Kwant.Bands2D.C187_mask_partial` | Classical.choice, Quot.sound, propext |
| C187 | `Kwant.Bands2D.C187_refused` | Classical.choice, Quot.sound, propext |
| C187 | `Kwant.Bands2D.C187_succeeds` | Classical.choice, Quot.sound, propext |
| C187 | `Kwant.Bands2D.C187_example` | Classical.choice, Quot.sound, propext |
| C187 | `Kwant.Bands2D.exists_vor` | Classical.choice, Quot.sound, propext |
| C187 | `Kwant.Bands2D.C187_counterexample` | Classical.choice, Quot.sound, propext |
| C188 | `Kwant.Scatt.C188_modes` | Classical.choice, Quot.sound, propext |
| C188 | `Kwant.Scatt.C188_smatrix_reversed` | Classical.choice, Quot.sound, propext |
| C188 | `Kwant.Scatt.C188_smatrix_preserved` | Classical.choice, Quot.sound, propext |
| C188 | `Kwant.Scatt.C188_reversed` | Classical.choice, Quot.sound, propext |
| C188 | `Kwant.Scatt.C188_preserved` | Classical.choice, Quot.sound, propext |
| C188 | `Kwant.Scatt.C188_transmission_reversed` | Classical.choice, Quot.sound, propext |
| C188 | `Kwant.Scatt.C188_transmission_preserved` | Classical.choice, Quot.sound, propext |
| C188 | `Kwant.Scatt.C188_onsager` | Classical.choice, Quot.sound, propext |
| C188 | `Kwant.Scatt.C188_symmetric` | Classical.choice, Quot.sound, propext |
| C188 | `Kwant.Scatt.C188_real` | Classical.choice, Quot.sound, propext |
| C188 | `Kwant.Scatt.C188_opposite_energy` | Classical.choice, Quot.sound, propext |
| C188 | `Kwant.Scatt.exTimeReversal` | Classical.choice, Quot.sound, propext |
| C188 | `Kwant.Scatt.exParticleHole` | Classical.choice, Quot.sound, propext |
| C188 | `Kwant.Scatt.exChiral` | Classical.choice, Quot.sound, propext |
| C188 | `Kwant.Scatt.C188_example` | Classical.choice, Quot.sound, propext |
| C189 | `Kwant.Scatt.C189_out_of_in` | Classical.choice, Quot.sound, propext |
| C189 | `Kwant.Scatt.C189_reversed` | Classical.choice, Quot.sound, propext |
| C189 | `Kwant.Scatt.C189_preserved` | Classical.choice, Quot.sound, propext |
| C189 | `Kwant.Scatt.C189_time_reversal` | Classical.choice, Quot.sound, propext |
| C189 | `Kwant.Scatt.C189_chiral` | Classical.choice, Quot.sound, propext |
| C189 | `Kwant.Scatt.C189_particle_hole` | Classical.choice, Quot.sound, propext |
| C189 | `Kwant.Scatt.C189_majorana` | Classical.choice, Quot.sound, propext |
| C189 | `Kwant.Scatt.C189_basis` | Classical.choice, Quot.sound, propext |
| C189 | `Kwant.Scatt.C189_computed_time_reversal` | Classical.choice, Quot.sound, propext |
| C189 | `Kwant.Scatt.C189_computed_chiral` | Classical.choice, Quot.sound, propext |
| C189 | `Kwant.Scatt.C189_computed_particle_hole` | Classical.choice, Quot.sound, propext |
| C189 | `Kwant.Scatt.C189_example` | Classical.choice, Quot.sound, propext |
| C189 | `Kwant.Leads.C189_modes` | Classical.choice, Quot.sound, propext |
| C189 | `Kwant.Leads.C189_lead_example` | Classical.choice, Quot.sound, propext |
| C190 | `Kwant.Scatt.C190_zero` | Classical.choice, Quot.sound, propext |
| C190 | `Kwant.Scatt.C190_transmission` | Classical.choice, Quot.sound, propext |
| C190 | `Kwant.Scatt.C190_smatrix` | Classical.choice, Quot.sound, propext |
| C190 | `Kwant.Scatt.C190_example` | Classical.choice, Quot.sound, propext |
| C191 | `Kwant.Scatt.C191_waves` | Classical.choice, Quot.sound, propext |
| C191 | `Kwant.Scatt.C191_smatrix` | Classical.choice, Quot.sound, propext |
| C191 | `Kwant.Scatt.C191_exists` | Classical.choice, Quot.sound, propext |
| C191 | `Kwant.Scatt.C191_transmission` | Classical.choice, Quot.sound, propext |
| C191 | `Kwant.Scatt.C191_bound` | Classical.choice, Quot.sound, propext |
| C191 | `Kwant.Scatt.C191_many` | Classical.choice, Quot.sound, propext |
| C191 | `Kwant.Scatt.C191_returned` | Classical.choice, Quot.sound, propext |
| C191 | `Kwant.Scatt.C191_example` | Classical.choice, Quot.sound, propext |
| C192 | `Kwant.Scatt.C192_waves` | Classical.choice, Quot.sound, propext |
| C192 | `Kwant.Scatt.C192_bound` | Classical.choice, Quot.sound, propext |
| C192 | `Kwant.Scatt.C192_smatrix` | Classical.choice, Quot.sound, propext |
| C192 | `Kwant.Scatt.C192_example` | Classical.choice, Quot.sound, propext |
| C192 | `Kwant.Scatt.reorder_ok` | Classical.choice, Quot.sound, propext |
| C193 | `Kwant.Value.C193_value` | Classical.choice, Quot.sound, propext |
| C193 | `Kwant.Value.C193_args` | Classical.choice, Quot.sound, propext |
| C193 | `Kwant.Value.C193_const` | Classical.choice, Quot.sound, propext |
| C193 | `Kwant.Value.C193_ok` | Classical.choice, Quot.sound, propext |
| C193 | `Kwant.Value.C193_names` | Classical.choice, Quot.sound, propext |
| C193 | `Kwant.Value.C193_example` | Classical.choice, Quot.sound, propext |
| C193 | `Kwant.Value.C193_counterexample_const` | Classical.choice, Quot.sound, propext |
| C193 | `Kwant.Value.C193_counterexample_cache` | Classical.choice, Quot.sound, propext |
| C193 | `Kwant.Value.C193_counterexample_matrix` | Classical.choice, Quot.sound, propext |
| C194 | `Kwant.Scatt.C194_transmission` | Classical.choice, Quot.sound, propext |
| C194 | `Kwant.Scatt.C194_smatrix` | Classical.choice, Quot.sound, propext |
| C194 | `Kwant.Scatt.C194_example` | Classical.choice, Quot.sound, propext |
| C195 | `Kwant.Call.C195_new` | Classical.choice, Quot.sound, propext |
| C195 | `Kwant.Call.C195_old` | Classical.choice, Quot.sound, propext |
| C195 | `Kwant.Call.C195_accepts` | Classical.choice, Quot.sound, propext |
| C195 | `Kwant.Call.C195_documented` | Classical.choice, Quot.sound, propext |
| C195 | `Kwant.Call.C195_defaults` | Classical.choice, Quot.sound, propext |
| C195 | `Kwant.Call.C195_rewrap` | Classical.choice, Quot.sound, propext |
| C195 | `Kwant.Call.C195_modes_selfenergy` | Classical.choice, Quot.sound, propext |
| C195 | `Kwant.Call.C195_deprecate` | Classical.choice, Quot.sound, propext |
| C195 | `Kwant.Call.accepts_keyword` | Classical.choice, Quot.sound, propext |
| C195 | `Kwant.Call.C195_example` | propext |
| C195 | `Kwant.Call.C195_counterexample` | Classical.choice, Quot.sound, propext |
| C196 | `Kwant.Schur.C196_schur` | Classical.choice, Quot.sound, propext |
| C196 | `Kwant.Schur.C196_inverse` | Classical.choice, Quot.sound, propext |
| C196 | `Kwant.Schur.C196_errors` | Classical.choice, Quot.sound, propext |
| C196 | `Kwant.Schur.C196_ignored` | Classical.choice, Quot.sound, propext |
| C196 | `Kwant.Schur.schur_eliminates` | Classical.choice, Quot.sound, propext |
| C196 | `Kwant.Schur.schur_inverse` | Classical.choice, Quot.sound, propext |
| C196 | `Kwant.Schur.C196_example` | Classical.choice, Quot.sound, propext |
| C196 | `Kwant.Schur.C196_counterexample` | Classical.choice, Quot.sound, propext |
| C197 | `Kwant.Scatt.C197_waves` | Classical.choice, Quot.sound, propext |
| C197 | `Kwant.Scatt.C197_states` | Classical.choice, Quot.sound, propext |
| C197 | `Kwant.Scatt.C197_smatrix` | Classical.choice, Quot.sound, propext |
| C197 | `Kwant.Scatt.C197_same` | Classical.choice, Quot.sound, propext |
| C197 | `Kwant.Scatt.C197_transmission` | Classical.choice, Quot.sound, propext |
| C197 | `Kwant.Scatt.C197_bound` | Classical.choice, Quot.sound, propext |
| C197 | `Kwant.Scatt.C197_density` | Classical.choice, Quot.sound, propext |
| C197 | `Kwant.Scatt.C197_gauge` | Classical.choice, Quot.sound, propext |
| C197 | `Kwant.Scatt.C197_returned` | Classical.choice, Quot.sound, propext |
| C197 | `Kwant.Scatt.C197_example` | Classical.choice, Quot.sound, propext |
| C197 | `Kwant.Scatt.gauge_ok` | Classical.choice, Quot.sound, propext |
| C198 | `Kwant.PlotSites.C198_sites` | Classical.choice, Quot.sound, propext |
| C198 | `Kwant.PlotSites.C198_default_colors` | Classical.choice, Quot.sound, propext |
| C198 | `Kwant.PlotSites.C198_example` | Classical.choice, Quot.sound, propext |
| C198 | `Kwant.PlotSites.C198_counterexample_builder` | Classical.choice, Quot.sound, propext |
| C198 | `Kwant.PlotSites.C198_counterexample_finalized` | Classical.choice, Quot.sound, propext |
| C199 | `Kwant.PlotSites.C199_hoppings` | Classical.choice, Quot.sound, propext |
| C199 | `Kwant.PlotSites.C199_leads` | Classical.choice, Quot.sound, propext |
| C199 | `Kwant.PlotSites.C199_fade` | Classical.choice, Quot.sound, propext |
| C199 | `Kwant.PlotSites.C199_inherit` | propext |
| C199 | `Kwant.PlotSites.C199_inherit_symbol` | propext |
| C199 | `Kwant.PlotSites.C199_example` | Classical.choice, Quot.sound, propext |
| C199 | `Kwant.PlotSites.C199_counterexample` | Classical.choice, Quot.sound, propext |
| C200 | `Kwant.RefLen.C200_nn` | Classical.choice, Quot.sound, propext |
| C200 | `Kwant.RefLen.C200_shortest` | Classical.choice, Quot.sound, propext |
| C200 | `Kwant.RefLen.C200_units` | Classical.choice, Quot.sound, propext |
| C200 | `Kwant.RefLen.C200_shift` | Classical.choice, Quot.sound, propext |
| C200 | `Kwant.RefLen.C200_example` | Classical.choice, Quot.sound, propext |
| C200 | `Kwant.RefLen.C200_counterexample` | Classical.choice, Quot.sound, propext |
| C201 | `Kwant.Solver.C201_solve` | Classical.choice, Quot.sound, propext |
| C201 | `Kwant.Solver.C201_smatrix` | Classical.choice, Quot.sound, propext |
| C201 | `Kwant.Solver.C201_greens` | Classical.choice, Quot.sound, propext |
| C201 | `Kwant.Solver.C201_wave` | Classical.choice, Quot.sound, propext |
| C201 | `Kwant.Solver.C201_ldos` | Classical.choice, Quot.sound, propext |
| C201 | `Kwant.Solver.C201_unitary` | Classical.choice, Quot.sound, propext |
| C201 | `Kwant.Solver.C201_example` | Classical.choice, Quot.sound, propext |
| C201 | `Kwant.Solver.C201_unitary_example` | Classical.choice, Quot.sound, propext |
| C202 | `Kwant.Stream.C202_lines` | Classical.choice, Quot.sound, propext |
| C202 | `Kwant.Stream.C202_thickest` | Classical.choice, Quot.sound, propext |
| C202 | `Kwant.Stream.C202_ends` | Classical.choice, Quot.sound, propext |
| C202 | `Kwant.Stream.C202_ends_bytes` | Classical.choice, Quot.sound, propext |
| C202 | `Kwant.Stream.C202_blending` | Classical.choice, Quot.sound, propext |
| C202 | `Kwant.Stream.C202_positions` | Classical.choice, Quot.sound, propext |
| C202 | `Kwant.Stream.C202_image` | Classical.choice, Quot.sound, propext |
| C202 | `Kwant.Stream.C202_background` | none |
| C202 | `Kwant.Stream.C202_example` | Classical.choice, Quot.sound, propext |
| C202 | `Kwant.Stream.C202_counterexample_image` | Classical.choice, Quot.sound, propext |
| C202 | `Kwant.Stream.C202_counterexample_bgcolor` | none |
| C203 | `Kwant.Output.C203_engine` | Classical.choice, Quot.sound, propext |
| C203 | `Kwant.Output.C203_matplotlib` | propext |
| C203 | `Kwant.Output.C203_plotly` | Classical.choice, Quot.sound, propext |
| C203 | `Kwant.Output.C203_none` | propext |
| C203 | `Kwant.Output.C203_stream` | Classical.choice, Quot.sound, propext |
| C203 | `Kwant.Output.C203_example` | propext |
| C203 | `Kwant.Output.C203_counterexample` | propext |
| C204 | `Kwant.GaugeSparse.C204_assign` | Classical.choice, Quot.sound, propext |
| C204 | `Kwant.GaugeSparse.C204_structure` | Classical.choice, Quot.sound, propext |
| C204 | `Kwant.GaugeSparse.C204_add` | Quot.sound, propext |
| C204 | `Kwant.GaugeSparse.C204_shift` | Classical.choice, Quot.sound, propext |
| C204 | `Kwant.GaugeSparse.C204_distance` | Quot.sound, propext |
| C204 | `Kwant.GaugeSparse.C204_unsorted` | Classical.choice, Quot.sound, propext |
| C204 | `Kwant.GaugeSparse.C204_example` | Classical.choice, Quot.sound, propext |
| C205 | `Kwant.ScalarPlot.C205_limits` | Classical.choice, Quot.sound, propext |
| C205 | `Kwant.ScalarPlot.C205_positions_partial` | Classical.choice, Quot.sound, propext |
| C205 | `Kwant.ScalarPlot.C205_counterexample` | Classical.choice, Quot.sound, propext |
| C205 | `Kwant.ScalarPlot.C205_example` | Classical.choice, Quot.sound, propext |

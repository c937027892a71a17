{"id": "C01", "title": "Compressed graph: out-neighbours are exactly the added edges in order", "statement": "After any sequence of add_edge calls, compressed() yields a graph whose out_neighbors(t) is the list of heads of the edges added with tail t, in the order of addition (multi-edges kept), for every existing node t; querying a node outside 0..num_nodes-1 raises NodeDoesNotExistError.", "quantifier": "all finite sequences of edges, all nodes, both compression modes", "why_tests_cant": "counting sort indices can go wrong only for particular degree patterns; tests sample a few graphs", "anchors": ["kwant/graph/core.pyx: Graph.add_edge, Graph.compressed, CGraph.out_neighbors"]}
{"id": "C02", "title": "Two-way compressed graph: in-neighbours and in-edge-ids agree with out side", "statement": "In a two-way compressed graph in_neighbors(h) lists the tails of all edges added with head h in order of addition, and the k-th entry of in_edge_ids(h) is the edge ID e with head(e)=h of that same edge.", "quantifier": "all edge sequences incl. dangling (negative) tails/heads when allowed", "why_tests_cant": "same as C01; two independent index arrays must agree", "anchors": ["kwant/graph/core.pyx: Graph.compressed, CGraph.in_neighbors, CGraph.in_edge_ids"]}
{"id": "C03", "title": "Edge-number to edge-ID translation is an injection onto the edges and preserves end points", "statement": "With edge_nr_translation, edge_id(nr) maps every sequential edge number that is representable to a distinct ID in 0..num_edges-1 and head(edge_id(nr)) is the head of the nr-th added edge; non-representable ones (negative tail in one-way graphs) and out-of-range numbers raise EdgeDoesNotExistError.", "quantifier": "all edge sequences, all edge numbers", "why_tests_cant": "must hold for every history of add_edge", "anchors": ["kwant/graph/core.pyx: Graph.compressed, CGraph.edge_id, CGraph.head"]}
{"id": "C04", "title": "Iterating a compressed graph enumerates (tail, head) in edge-ID order", "statement": "list(cgraph) for a graph without negative tails has length num_edges, and its k-th entry is the (tail, head) of the edge with ID k; as a multiset it equals the multiset of added edges.", "quantifier": "all edge sequences without negative tails", "why_tests_cant": "the iterator carries a moving tail cursor; needs all degree patterns including empty nodes", "anchors": ["kwant/graph/core.pyx: EdgeIterator.__next__, CGraph.__iter__"]}
{"id": "C05", "title": "has_edge / first_edge_id / all_edge_ids agree with the added edges", "statement": "has_edge(t,h) is true iff edge (t,h) was added; first_edge_id(t,h) returns the smallest ID whose edge is (t,h) and raises EdgeDoesNotExistError iff there is none; all_edge_ids lists exactly all such IDs in increasing order (t >= 0).", "quantifier": "all edge sequences, all node pairs", "why_tests_cant": "search ranges come from CSR offsets", "anchors": ["kwant/graph/core.pyx: CGraph.has_edge, CGraph.first_edge_id, CGraph.all_edge_ids"]}
{"id": "C06", "title": "CGraph.tail inverts the edge ID", "statement": "tail(e) returns the tail of the edge with ID e, for every valid edge ID of every compressed graph.", "quantifier": "all edge sequences and edge IDs", "why_tests_cant": "binary search over offsets with repeated entries (nodes without outgoing edges)", "anchors": ["kwant/graph/core.pyx: CGraph.tail"]}
{"id": "C07", "title": "Graph bookkeeping: num_nodes and rejected edges", "statement": "num_nodes never decreases and is always strictly larger than every non-negative node of every accepted edge; add_edge returns consecutive numbers; negative nodes are rejected unless allowed, doubly-dangling edges always; a rejected edge leaves the graph unchanged; compression in one-way mode fails iff some accepted edge has a negative tail and lost edges are not allowed.", "quantifier": "all sequences of add_edge / num_nodes assignments", "why_tests_cant": "history property", "anchors": ["kwant/graph/core.pyx: Graph.num_nodes, Graph.add_edge, Graph.compressed"]}
{"id": "C08", "title": "Pickling a compressed graph is lossless", "statement": "__setstate__(__getstate__()) reproduces a compressed graph that answers every query identically.", "quantifier": "all compressed graphs (all flags)", "why_tests_cant": "counts are recomputed from derived totals; a mistake shows only for certain dangling-edge mixes", "anchors": ["kwant/graph/core.pyx: CGraph_malloc.__getstate__, __setstate__, __init__"]}
{"id": "C10", "title": "Translational symmetry is a group action on sites and hoppings", "statement": "act(0,s)=s, act(g,act(h,s))=act(g+h,s), and acting on a hopping acts on both of its ends, including on reversed symmetries and across site families.", "quantifier": "all integer period matrices, all group elements and sites of any dimension", "why_tests_cant": "infinitely many group elements and lattices", "anchors": ["kwant/lattice.py: TranslationalSymmetry.act, .reversed"]}
{"id": "C11", "title": "which() is equivariant and defines one representative per orbit", "statement": "which(act(g,s)) = g + which(s); to_fd(s) lies in the fundamental domain, is in the orbit of s, is idempotent, and two sites are in the same orbit iff they have the same to_fd image.", "quantifier": "all lattices dimensions, periods (det of either sign), sites, group elements", "why_tests_cant": "floor division with negative determinants/tags is only right if it holds for all integers", "anchors": ["kwant/lattice.py: TranslationalSymmetry.which, .act, add_site_family", "kwant/builder.py: Symmetry.to_fd, Symmetry.in_fd"]}
{"id": "C12", "title": "reversed() keeps the fundamental domain and inverts the group", "statement": "For sym.reversed(): act_rev(g,s) = act(-g,s), which_rev(s) = -which(s), in_fd unchanged, to_fd unchanged; reversing twice gives back the original behaviour.", "quantifier": "all symmetries, sites, elements", "why_tests_cant": "for all inputs", "anchors": ["kwant/lattice.py: TranslationalSymmetry.reversed", "kwant/builder.py: Builder.reversed"]}
{"id": "C20", "title": "Builder well-formedness is an invariant of every operation history", "statement": "After any sequence of public operations (set/del site or hopping, update, eradicate_dangling, failing operations included) the builder satisfies: every stored site is in the fundamental domain, every hopping (a,b) is present iff (b,a) is present, exactly one direction of each hopping is reported by hoppings(), no hopping connects a site to itself or refers to an absent site.", "quantifier": "all finite histories of operations, all symmetries", "why_tests_cant": "histories are unbounded", "anchors": ["kwant/builder.py: Builder._set_site, _set_hopping, _del_site, _del_hopping, eradicate_dangling, update"]}
{"id": "C21", "title": "Read-your-writes for sites, with frame", "statement": "After builder[site]=v, builder[s'] == v for every s' in the orbit of site, all other sites and all hoppings keep their values and containment.", "quantifier": "all builder states reachable, all sites, values", "why_tests_cant": "for every state and key", "anchors": ["kwant/builder.py: Builder._set_site, __getitem__, __contains__"]}
{"id": "C22", "title": "Read-your-writes for hoppings, Hermitian and symmetric, with frame", "statement": "After builder[a,b]=v (both ends present) builder[g.a,g.b]==v and builder[g.b,g.a]==herm_conj(v) for all group elements g, and no other site or hopping value changes.", "quantifier": "all reachable states, hoppings, group elements", "why_tests_cant": "for every state and key", "anchors": ["kwant/builder.py: Builder._set_hopping, _get_edge, _set_edge, __getitem__, HermConjOfFunc"]}
{"id": "C23", "title": "Hermiticity of stored values", "statement": "In every reachable state builder[b,a] == herm_conj(builder[a,b]) whenever (a,b) in builder.", "quantifier": "all histories", "why_tests_cant": "history property", "anchors": ["kwant/builder.py: Builder.__getitem__, herm_conj, HermConjOfFunc"]}
{"id": "C24", "title": "Failing set/del of a hopping leaves the builder unchanged (atomicity)", "statement": "If builder[a,b]=v raises (loop hopping, absent site) the builder is unchanged; likewise del builder[a,b] of an absent hopping and del builder[s] of an absent site.", "quantifier": "all reachable states and keys", "why_tests_cant": "needs every crash point between the two half-edge writes", "anchors": ["kwant/builder.py: Builder._set_hopping, _del_hopping, _del_site"]}
{"id": "C25", "title": "Deleting a site removes it and exactly its hoppings", "statement": "After del builder[s]: neither s nor any hopping touching the orbit of s is contained; every other site and hopping is unchanged.", "quantifier": "all reachable states, sites", "why_tests_cant": "the deletion loop iterates over a list it may be mutating (self-image hoppings)", "anchors": ["kwant/builder.py: Builder._del_site"]}
{"id": "C26", "title": "Deleting a hopping removes exactly that hopping (both directions, all images)", "statement": "After del builder[a,b], neither (a,b) nor (b,a) nor any image is contained and all other sites/hoppings are unchanged.", "quantifier": "all reachable states and hoppings", "why_tests_cant": "for every state", "anchors": ["kwant/builder.py: Builder._del_hopping"]}
{"id": "C27", "title": "sites()/hoppings()/len consistency: hoppings() enumerates each hopping once", "statement": "For every reachable builder and every hopping (a,b) contained in it, exactly one of the pairs yielded by hoppings() is equivalent to (a,b) or (b,a); every yielded pair is contained; sites() yields every contained site orbit exactly once.", "quantifier": "all histories", "why_tests_cant": "for all states", "anchors": ["kwant/builder.py: Builder.sites, hoppings, hopping_value_pairs, site_value_pairs"]}
{"id": "C28", "title": "degree() and neighbors()", "statement": "neighbors(s) yields exactly the sites n with (s,n) in the builder, without repetition, for any image s; degree(s) is their number.", "quantifier": "all reachable states, all sites of the orbit", "why_tests_cant": "needs symmetry shift", "anchors": ["kwant/builder.py: Builder.neighbors, degree, _out_degree"]}
{"id": "C29", "title": "eradicate_dangling removes exactly the sites outside the 2-core", "statement": "After eradicate_dangling() no site has fewer than two hoppings; the surviving sites are the largest subset with that property, values of surviving sites/hoppings are unchanged, the call terminates.", "quantifier": "all reachable builders (without and with symmetry)", "why_tests_cant": "cascading deletion along arbitrarily long chains", "anchors": ["kwant/builder.py: Builder.eradicate_dangling"]}
{"id": "C30", "title": "update() overwrites with the other builder and appends its leads", "statement": "After a.update(b) (equal symmetries): for each site/hopping of b the value is that of b, every other one is that of a; leads are a.leads+b.leads.", "quantifier": "all pairs of reachable builders", "why_tests_cant": "for all pairs", "anchors": ["kwant/builder.py: Builder.update"]}
{"id": "C31", "title": "General keys expand recursively in order", "statement": "builder.expand(key) yields exactly the simple keys at the leaves of the nested key in left-to-right order, for any nesting; builder[key]=v equals assigning each in turn.", "quantifier": "all nested keys", "why_tests_cant": "explicit iterator stack", "anchors": ["kwant/builder.py: Builder.expand, __setitem__, __delitem__"]}
{"id": "C32", "title": "substituted()/_substitute_params rename parameters simultaneously and reject collisions", "statement": "The substituted function has parameter list subs applied simultaneously, rejects exactly when two parameters would get the same name, is called with the same positional arguments; composing substitutions composes the renamings.", "quantifier": "all parameter lists and substitution maps", "why_tests_cant": "for all maps", "anchors": ["kwant/builder.py: _substitute_params, _Substituted, Builder.substituted"]}
{"id": "C33", "title": "HoppingKind enumerates exactly the matching hoppings", "statement": "kind(builder) yields exactly the pairs (a,b) with a stored site of family_a, b=family_b(a.tag-delta) and b's image contained in the builder, each once.", "quantifier": "all reachable builders, deltas", "why_tests_cant": "for all builders", "anchors": ["kwant/builder.py: HoppingKind.__call__"]}
{"id": "C34", "title": "fill() is a correct flood fill", "statement": "fill(template, shape, start) without leads/exception adds exactly the sites reachable from the start sites through template hoppings inside shape and not already present; afterwards the builder is well-formed, new sites carry the template's values, hoppings between new and present sites are those of the template, older ones untouched.", "quantifier": "all templates, shapes, starts, targets", "why_tests_cant": "graph reachability over arbitrary templates", "anchors": ["kwant/builder.py: Builder.fill"]}
{"id": "C35", "title": "attach_lead adds a complete interface", "statement": "After attach_lead succeeded, every interface site and every added site is contained in the system, the interface is the set of lead sites in domain max_dom that have a hopping to domain max_dom+1, and no site of domain max_dom+1 was left in the system by the call.", "quantifier": "all leads/systems", "why_tests_cant": "depends on fill", "anchors": ["kwant/builder.py: Builder.attach_lead"]}
{"id": "C36", "title": "Automatic increase of a lead's period preserves the lead", "statement": "When attach_lead increases the lead period because hoppings reach beyond the nearest unit cell, the extended lead describes the same infinite system as the original: it contains exactly the original sites and hoppings with their original values.", "quantifier": "all leads, hopping ranges and values", "why_tests_cant": "for all leads; connectivity of the lead matters", "anchors": ["kwant/builder.py: Builder.attach_lead (hop_range > 1 branch), Builder.fill"]}
{"id": "C40", "title": "Finalized finite system: site numbering is a bijection sorted by (family, tag)", "statement": "sites is sorted without repetition, contains exactly builder.sites(), id_by_site[sites[i]]==i.", "quantifier": "all reachable builders without symmetry", "why_tests_cant": "for all builders", "anchors": ["kwant/builder.py: FiniteSystem.__init__"]}
{"id": "C41", "title": "Finalized Hamiltonian equals the builder's values", "statement": "syst.hamiltonian(i,i)==builder[sites[i]] and syst.hamiltonian(i,j)==builder[sites[i],sites[j]] for every hopping, and the pair (i,j) is an edge of syst.graph iff the hopping is in the builder; evaluation of value functions is with the sites in the right order.", "quantifier": "all reachable builders, all i, j", "why_tests_cant": "order of hoppings list must match edge IDs for every graph", "anchors": ["kwant/builder.py: FiniteSystem.__init__, _FinalizedBuilderMixin.hamiltonian"]}
{"id": "C42", "title": "Finalized Hamiltonian is Hermitian off the diagonal by construction", "statement": "hamiltonian(j,i) == herm_conj(hamiltonian(i,j)) for every edge of the graph and every parameter assignment.", "quantifier": "all reachable builders and parameters", "why_tests_cant": "for all", "anchors": ["kwant/builder.py: _FinalizedBuilderMixin.hamiltonian"]}
{"id": "C43", "title": "site_ranges / orbital offsets are correct", "statement": "_site_ranges produces run-length ranges such that for every site i the offset found by bisection equals the total number of orbitals of sites 0..i-1 and the norbs equals that of the site; the final sentinel gives the total.", "quantifier": "all site sequences and orbital numbers", "why_tests_cant": "bisection over arbitrary runs", "anchors": ["kwant/builder.py: _site_ranges", "kwant/operator.pyx: _bisect, _get_orbs, _get_tot_norbs"]}
{"id": "C44", "title": "hamiltonian_submatrix: entries", "statement": "The dense submatrix has at block (to,from) the onsite if to==from and the hopping if an edge exists and 0 otherwise; the sparse result represents the same matrix (duplicates summed); the full-matrix fast path (only half of the edges evaluated) equals the general path for Hermitian systems.", "quantifier": "all systems, site selections without repetition", "why_tests_cant": "four code paths over arbitrary block sizes", "anchors": ["kwant/_system.pyx: make_sparse, make_sparse_full, make_dense, make_dense_full, hamiltonian_submatrix"]}
{"id": "C45", "title": "Full Hamiltonian matrix is Hermitian iff its onsite blocks are", "statement": "The full matrix returned by hamiltonian_submatrix() is Hermitian whenever all onsite blocks are Hermitian, whatever the hopping functions return.", "quantifier": "all systems", "why_tests_cant": "for all systems", "anchors": ["kwant/_system.pyx: make_dense_full, make_sparse_full"]}
{"id": "C46", "title": "Finalized infinite system layout", "statement": "The first cell_size sites are exactly the builder's sites, the first N of which are exactly those with a hopping to the next domain, and the remaining N sites are their images in the previous domain in the same order; ids are inverse to sites; further-than-nearest-cell hoppings are rejected.", "quantifier": "all reachable 1D-symmetric builders", "why_tests_cant": "for all builders", "anchors": ["kwant/builder.py: InfiniteSystem.__init__"]}
{"id": "C47", "title": "Infinite system Hamiltonian equals builder values", "statement": "hamiltonian(i,j)==builder[sites[i],sites[j]] for i,j intra-cell hopping or inter-cell hopping, onsite of an interface copy equals that of the cell site.", "quantifier": "all reachable 1D-symmetric builders", "why_tests_cant": "for all builders", "anchors": ["kwant/builder.py: InfiniteSystem.__init__, InfiniteSystem.hamiltonian"]}
{"id": "C48", "title": "precalculate() only changes the requested leads and freezes what was asked", "statement": "precalculate(what, leads) leaves non-listed leads identical, and a listed lead's modes()/selfenergy() return the precomputed value or raise ValueError exactly if it was not requested.", "quantifier": "all lead lists and selections", "why_tests_cant": "for all selections", "anchors": ["kwant/system.py: FiniteSystem.precalculate, PrecalculatedLead"]}
{"id": "C49", "title": "Broken symmetries are ignored when computing modes", "statement": "InfiniteSystem.modes ignores every declared discrete symmetry that validate() reports as broken.", "quantifier": "all combinations of broken symmetries", "why_tests_cant": "attribute name table must match for every symmetry", "anchors": ["kwant/system.py: InfiniteSystem.modes"]}
{"id": "C50", "title": "where-validation of Current operators rejects exactly inter-cell hoppings", "statement": "For infinite systems a hopping given via where is accepted iff both sites are in the fundamental cell.", "quantifier": "all systems and where lists", "why_tests_cant": "boundary index", "anchors": ["kwant/operator.pyx: _normalize_hopping_where, _normalize_site_where"]}
{"id": "C51", "title": "Hamiltonian block shape check in operators", "statement": "A Hamiltonian block used in an operator is accepted iff both of its dimensions match the declared orbital numbers.", "quantifier": "all block shapes", "why_tests_cant": "for all shapes", "anchors": ["kwant/operator.pyx: _check_ham"]}
{"id": "C52", "title": "BlockSparseMatrix storage is lossless", "statement": "Element (i,j) of block w is retrievable at data[data_offsets[w]+i*ncols+j] for all blocks: blocks do not overlap.", "quantifier": "all block lists", "why_tests_cant": "for all shapes", "anchors": ["kwant/operator.pyx: BlockSparseMatrix"]}
{"id": "C53", "title": "transmission() deduced by current conservation is right", "statement": "When the scattering matrix conserves current, transmission(o,i) equals the true transmission whenever it returns a value, for any set of computed out/in leads.", "quantifier": "all lead numbers, transmission matrices with row/column sums equal to the number of modes", "why_tests_cant": "combinatorial over missing leads", "anchors": ["kwant/solvers/common.py: BlockResult.transmission"]}
{"id": "C54", "title": "conductance matrix columns (and rows) sum to zero", "statement": "conductance_matrix() has zero column sums always; zero row sums if current is conserved; off-diagonals are minus the transmissions.", "quantifier": "all numbers of leads and transmissions", "why_tests_cant": "for all n", "anchors": ["kwant/solvers/common.py: BlockResult.conductance_matrix"]}
{"id": "C55", "title": "S-matrix block slices partition the matrix", "statement": "The slices for the out (in) leads, and for the symmetry blocks inside a lead, are disjoint, ordered and cover all rows (columns), and each has the size of that lead/block.", "quantifier": "all lead subsets and block sizes", "why_tests_cant": "for all sizes", "anchors": ["kwant/solvers/common.py: BlockResult.out_block_coords, in_block_coords, SMatrix.out_block_coords"]}
{"id": "C56", "title": "Density operators compute the documented bilinear form", "statement": "Density(...)(bra, ket) returns for each element of where the sum over orbitals of conj(bra) Q ket, where Q is the onsite matrix on the orbitals of that site and zero elsewhere; act() applies the sum of these tensors to the ket, tocoo() is their sum as a matrix, sum=True sums the elements, and with check_hermiticity nothing is lost by returning real numbers when bra is ket.", "quantifier": "all systems, onsites, where lists, wave functions", "why_tests_cant": "for all orbital numbers and wave functions", "anchors": ["kwant/operator.pyx: Density, _LocalOperator.__call__, _LocalOperator.act, Density.tocoo"]}
{"id": "C57", "title": "Current and Source compute the documented bilinear forms and satisfy continuity", "statement": "Current on (a,b) is conj(bra) [i H_ab^dagger M_a - i M_a H_ab] ket, Source on a is conj(bra) i [H_a^dagger M_a - M_a H_a] ket. For an eigenstate with real energy, the currents from a site plus the source on it sum to zero; for a scalar onsite and a Hermitian hopping, the current on (b,a) is minus that on (a,b).", "quantifier": "all systems, onsites, where lists, wave functions", "why_tests_cant": "for all orbital numbers and wave functions", "anchors": ["kwant/operator.pyx: Current, Source"]}
{"id": "C58", "title": "bind() is equivalent to giving the parameters on every call", "statement": "op.bind(params) called without parameters gives what op gives with these parameters (value and act); a bound operator refuses further parameters; bind fails exactly if evaluation of the needed matrices fails.", "quantifier": "all operators and parameters", "why_tests_cant": "for all operators", "anchors": ["kwant/operator.pyx: _LocalOperator.bind, Current.bind, Source.bind"]}
{"id": "C60", "title": "DiscreteSymmetry auto-computes the missing symmetry consistently", "statement": "If two of (T, P, C) are given and the constructor accepts, the three stored operators satisfy C P T* = 1, each is unitary and squares to +-1 (C to +1).", "quantifier": "all matrix sizes and operators (exact arithmetic)", "why_tests_cant": "algebraic identity for all matrices", "anchors": ["kwant/physics/symmetry.py: DiscreteSymmetry.__init__"]}
{"id": "C61", "title": "Gaussian random matrices have the symmetries of their class", "statement": "gaussian(n, sym) is Hermitian and satisfies exactly the documented chiral/time-reversal/particle-hole relations for every random draw.", "quantifier": "all n, all 10 classes, all random draws (exact arithmetic)", "why_tests_cant": "random draws cannot be exhausted", "anchors": ["kwant/rmt.py: gaussian, t, p, c, h_t_matrix, h_p_matrix"]}
{"id": "C62", "title": "Peierls phases: the product around every closed walk is the flux", "statement": "For a finite system, magnetic_gauge(syst) terminates without an exception; the loops it finds are ordered such that each one only uses links whose phase is already known. The returned phases are unit numbers, phase(b,a) is the conjugate of phase(a,b), phases are 1 on a spanning forest, and the product around every loop found is exp(i*pi*flux). If the field has a vector potential (e.g. a constant field), the same holds for every closed walk along hoppings, and the phases are gauge equivalent to those of the vector potential.", "quantifier": "all finite systems, positions, fields and closed walks; any choice among ties by set.pop, argsort and the heap", "why_tests_cant": "for all graphs and walks", "anchors": ["kwant/physics/gauge.py: _calculate_phases, _previous_phase_finite, _finite_wrapper, _find_loops, _shortest_distance_forest, _surface_integral"]}
{"id": "C63", "title": "Dijkstra returns shortest paths", "statement": "dijkstra_directed returns for each reachable (source,target) a path of existing finite-weight edges whose length is the reported length and is minimal.", "quantifier": "all non-negatively weighted graphs", "why_tests_cant": "for all graphs", "anchors": ["kwant/graph/dijkstra.pyx: dijkstra_directed, _calculate_path"]}
{"id": "C64", "title": "magnetic_gauge honours its 'average' argument", "statement": "gauge(B, average=True) evaluates each triangle with a single field evaluation.", "quantifier": "all calls", "why_tests_cant": "argument passing for every call", "anchors": ["kwant/physics/gauge.py: magnetic_gauge.__call__"]}
{"id": "C65", "title": "Bands returns the Bloch energies and their velocities", "statement": "For every momentum k, Bands(k) returns in ascending order and with their multiplicities exactly the energies for which the infinite wire has a Bloch wave with that momentum; returned eigenvectors are orthonormal and solve the Schroedinger equation. For every non-degenerate band there is a differentiable energy near k, and every continuous energy through it has the returned velocity as its derivative. (At a degeneracy the velocities depend on the eigenvectors that LAPACK chooses and need not be derivatives.)", "quantifier": "all k, all Hermitian cell Hamiltonians, hoppings and sizes", "why_tests_cant": "continuum of k; the derivative is a limit", "anchors": ["kwant/physics/dispersion.py: Bands.__init__, Bands.__call__"]}
{"id": "C66", "title": "wraparound gives the Bloch Hamiltonian", "statement": "wraparound(builder, keep) never fails for a builder whose value functions respect its symmetry; it contains exactly the sites of builder in the fundamental domain of the wrapped directions; evaluated at any parameters and momenta k it has for each pair (a,b) of such sites the matrix element sum over wrapped translations n of exp(i k.n) * builder[a, n.b], and is Hermitian for every k.", "quantifier": "all builders with translational symmetry, every keep, all parameters and momenta", "why_tests_cant": "many-to-one folding of hoppings", "anchors": ["kwant/wraparound.py: wraparound"]}
{"id": "C67", "title": "digest.uniform is in [0,1)", "statement": "uniform(input,salt) returns a number u with 0 <= u < 1 exactly representable, for every input; gauss never takes log of zero.", "quantifier": "all md5 digests (2^128)", "why_tests_cant": "cannot enumerate", "anchors": ["kwant/digest.py: uniform2, uniform, gauss"]}
{"id": "C70", "title": "LLL ends and returns a reduced basis of the same lattice", "statement": "For every linearly independent basis and every c > 4/3 (the default is 1.34) lll() ends without an error. The vectors it returns span the same lattice as the input, the returned coefficient matrix is integer with determinant +-1 and expresses the new vectors in the input basis, and the new basis is c-reduced: the squared length of every Gram-Schmidt vector is less than c times that of the next one.", "quantifier": "all bases (exact arithmetic), all dimensions, all iteration counts", "why_tests_cant": "termination and invariant of an unbounded loop", "anchors": ["kwant/linalg/lll.py: lll, is_c_reduced, gs, gs_coefficient"]}
{"id": "C71", "title": "cvp returns the closest lattice vectors", "statement": "cvp(vec, basis, n) ends and returns n different lattice points in the order of their distance to vec such that no other lattice point is closer than any returned one. With group_by_length=True, whenever it returns, the result consists of exactly n groups of equal length (within rtol) and all the other lattice points are farther away than all the returned ones by more than the tolerance.", "quantifier": "all vectors and bases (exact arithmetic), all n", "why_tests_cant": "search region is finite; the claim is about all lattice points", "anchors": ["kwant/linalg/lll.py: cvp"]}
{"id": "C72", "title": "voronoi returns the vectors that define the Voronoi cell", "statement": "voronoi(basis) ends and returns 2(2^D-1) nonzero lattice vectors, the second half minus the first, one pair for every nonzero class modulo 2L, each a shortest vector of its class; a point is at least as close to the origin as to all the lattice points iff it is so with respect to the returned ones. With reduced=True (and rtol=0) the returned vectors are exactly the normals of the faces of codimension one of the Voronoi cell; for any rtol >= 0 none of the returned vectors is redundant.", "quantifier": "all bases, all D", "why_tests_cant": "all dimensions; the Voronoi cell is defined by infinitely many lattice points", "anchors": ["kwant/linalg/lll.py: voronoi"]}
{"id": "C80", "title": "memoize returns what the function returns", "statement": "A memoized pure function returns the same results as the original for every call history; every non-None result is computed at most once per key.", "quantifier": "all call histories", "why_tests_cant": "histories are unbounded", "anchors": ["kwant/_common.py: memoize"]}
{"id": "C81", "title": "get_parameters accepts exactly plain positional signatures", "statement": "get_parameters(f) returns all parameter names in order if every parameter is positional without default and raises ValueError otherwise.", "quantifier": "all signatures", "why_tests_cant": "for all signatures", "anchors": ["kwant/_common.py: get_parameters"]}
{"id": "C82", "title": "interleave pairs elements", "statement": "interleave(seq) yields (seq[0],seq[1]),(seq[2],seq[3]),..., dropping an odd last element.", "quantifier": "all sequences", "why_tests_cant": "for all lengths", "anchors": ["kwant/_common.py: interleave"]}
{"id": "C90", "title": "Leads of a finalized system point at the right sites", "statement": "Finalizing a builder with leads succeeds iff every lead can be finalized and all its interface sites are in the system (ValueError otherwise); lead_interfaces[k] lists the numbers of the interface sites of lead k in the given order and lead_paddings[k] those of the padding sites that are still in the system.", "quantifier": "all reachable builders, all lists of leads", "why_tests_cant": "for all lead lists and interfaces", "anchors": ["kwant/builder.py: FiniteSystem.__init__"]}
{"id": "C91", "title": "parameters of a finalized system are exactly those of its value functions and suffice", "statement": "The parameters attribute is the set of parameter names of the value functions of the builder (without the site arguments), None if a function has an unsuitable signature; giving all of them in params makes no element of the Hamiltonian fail for missing parameters.", "quantifier": "all reachable builders, all parameter dictionaries", "why_tests_cant": "for all builders and parameter assignments", "anchors": ["kwant/builder.py: FiniteSystem.__init__, InfiniteSystem.__init__, _value_params_pair_cache"]}
{"id": "C92", "title": "interface_order and the range of hoppings decide whether an infinite system can be finalized", "statement": "InfiniteSystem(builder, interface_order) succeeds iff all hoppings connect equal or neighbouring cells and interface_order (if given) is sorted and some translation maps it onto the sites that have a hopping to the next cell; otherwise ValueError.", "quantifier": "all reachable 1D-symmetric builders, all interface orders", "why_tests_cant": "for all site lists", "anchors": ["kwant/builder.py: InfiniteSystem.__init__"]}
{"id": "C93", "title": "Sparse submatrices never overflow the arrays allocated for them", "statement": "hamiltonian_submatrix(sparse=True) never writes more elements than the size of the arrays computed beforehand from the orbital numbers (for systems without self-loops in the graph).", "quantifier": "all systems, site selections and block shapes", "why_tests_cant": "memory safety of unchecked array writes for all inputs", "anchors": ["kwant/_system.pyx: make_sparse, make_sparse_full"]}
{"id": "C94", "title": "smatrix rows are the outgoing modes of out_leads in order", "statement": "smatrix(syst, energy, out_leads, in_leads) accepts exactly the strictly increasing, nonempty lists of leads with modes; the rows of the result are the propagating outgoing modes of the leads in out_leads, lead by lead, and the columns the incoming modes of the leads in in_leads.", "quantifier": "all systems (including leads without hopping), all lead lists", "why_tests_cant": "the number of leads, their numbers of modes and the requested subsets are unbounded; tests use leads that all have modes", "anchors": ["kwant/solvers/common.py: SparseSolver.smatrix, SparseSolver._make_linear_sys"]}
{"id": "C95", "title": "The linear system is the scattering problem", "statement": "A vector solves the linear system set up by smatrix/wave_function with the right-hand side of incoming mode b of lead i if and only if it consists of a wave function in the scattering region and amplitudes of the outgoing and evanescent modes in all leads that solve the Schroedinger equation in the scattering region and match at every lead; for greens_function the solutions are exactly the columns of (E - H - Sigma)^-1 at the interface orbitals of the requested leads.", "quantifier": "all Hamiltonians, energies, numbers of leads, mode matrices and self-energies; all incoming modes", "why_tests_cant": "an equivalence over all systems and all solutions; tests compare conductances of single systems", "anchors": ["kwant/solvers/common.py: SparseSolver._make_linear_sys, SparseSolver.greens_function, SparseSolver.smatrix"]}
{"id": "C96", "title": "Green's function transmissions conserve current", "statement": "For a Hermitian Hamiltonian and all leads requested, GreensFunction.transmission(a, b) summed over all b, or over all a, is the number of propagating modes of the fixed lead.", "quantifier": "all Hermitian Hamiltonians, all (not necessarily Hermitian) self-energies, all numbers of leads", "why_tests_cant": "an algebraic identity over all matrices; tests check it for random samples to rounding error", "anchors": ["kwant/solvers/common.py: GreensFunction._transmission, GreensFunction._a_ttdagger_a_inv, BlockResult.submatrix"]}
{"id": "C97", "title": "wave_function and ldos", "statement": "wave_function(syst)(lead) returns, for each incoming mode of the lead, the wave function in the scattering region of the scattering state of that mode, and raises ValueError for leads without modes; ldos is the sum over all incoming modes of all leads of |psi|^2 / 2 pi, independently of how many right-hand sides are solved at once.", "quantifier": "all systems, leads, modes, batch sizes nrhs >= 1", "why_tests_cant": "the numbers of modes and leads and the batch size are unbounded", "anchors": ["kwant/solvers/common.py: WaveFunction, SparseSolver.ldos"]}
{"id": "C68", "title": "Accepted discrete symmetries are in canonical form", "statement": "If the constructor of DiscreteSymmetry accepts projectors and symmetries, then for each symmetry S and each projector p_i there is at most one projector p_j for which the block p_i^+ S p_j^(*) is not zero.", "quantifier": "all dimensions, projectors and symmetries", "why_tests_cant": "a continuum of matrices", "anchors": ["kwant/physics/symmetry.py: DiscreteSymmetry.__init__"]}
{"id": "C69", "title": "validate() lists exactly the broken symmetries", "statement": "validate(matrix) returns, in the documented order and without repetition, exactly the names of the symmetries that the (zero-padded) matrix breaks: projectors that do not commute with it, a time reversal that does not commute with it as an antiunitary operator, a particle-hole or chiral symmetry that does not anticommute with it.", "quantifier": "all matrices, square or rectangular, and all accepted symmetries (exact arithmetic)", "why_tests_cant": "a continuum of matrices", "anchors": ["kwant/physics/symmetry.py: DiscreteSymmetry.validate"]}
{"id": "C100", "title": "Accepted projectors stack to a unitary matrix", "statement": "If the constructor of DiscreteSymmetry accepts projectors, the nonzero columns of all projectors together form an orthonormal basis.", "quantifier": "all lists of rectangular matrices", "why_tests_cant": "a continuum of matrices", "anchors": ["kwant/physics/symmetry.py: DiscreteSymmetry.__init__"]}
{"id": "C98", "title": "circular(): unitarity, all documented symmetries, and the requested topological charge", "statement": "For every draw of the random numbers circular(n, sym, charge) returns a unitary matrix with all time-reversal, particle-hole and chiral symmetries documented for the class; in class D its determinant is the charge, in class DIII the charge is the Pfaffian of i times the matrix, in AIII and BDI (CII) its trace is n-2*charge (n-4*charge); for n>=2 and documented parameters it never raises, in particular the 'QR decomposition symmetry failure' cannot happen in exact arithmetic.", "quantifier": "all n, ten symmetry classes, all draws, all charges", "why_tests_cant": "tests draw a handful of matrices; the symplectic case rests on an unexplained property of QR", "anchors": ["kwant/rmt.py: circular"]}
{"id": "C99", "title": "Bands returns the curvatures", "statement": "For every non-degenerate band the curvature returned by Bands(k, derivative_order=2) is the second derivative of the energy.", "quantifier": "all k, all systems, all contents of uninitialised memory", "why_tests_cant": "NumPy leaves the masked entries of the result uninitialised: tests see whatever the memory contains", "anchors": ["kwant/physics/dispersion.py: Bands.__call__"]}
{"id": "C101", "title": "Peierls phases of an infinite system are periodic and give the right flux through every closed walk", "statement": "For an infinite system (a lead) with a connected unit cell and a magnetic field with the symmetry of the lead, magnetic_gauge(lead)(field) returns a function that gives, for every hopping of the infinite system in whatever unit cell, a unit number; reversing the hopping conjugates it; translating the hopping by periods does not change it; and the product around every closed walk, however many unit cells it spans, is exp(i pi flux) with the flux through that walk.", "quantifier": "all infinite systems with a connected unit cell that has hoppings, all periodic fields with a vector potential (in particular all constant fields), all hoppings in all unit cells, all closed walks", "why_tests_cant": "Walks through any number of unit cells, for every graph of the unit cell; the loops are only searched for in two cells, and that this suffices is a topological argument.", "anchors": ["kwant/physics/gauge.py:_loops_in_infinite,_check_infinite_syst,_previous_phase_infinite,_infinite_wrapper,_peierls_infinite"]}
{"id": "C102", "title": "shape() yields exactly the connected part of the shape, in the fundamental domain, and ends if it is finite", "statement": "For a lattice, a shape function f and a starting position, iterating lattice.shape(f, start)(symmetry) yields exactly the sites that are in the shape, belong to the fundamental domain of the symmetry, and whose unit cell can be reached from the unit cells of the sites closest to start by steps between neighboring unit cells (those whose Voronoi cells share a face) that contain a site of the shape; each site once. It ends if and only if there are finitely many of them, and raises ValueError exactly if none of the sites closest to start is in the shape.", "quantifier": "all lattices (any number of sublattices, any dimension, any linearly independent primitive vectors), all shape functions, starting positions and translational symmetries, all orders in which Python iterates over the sets involved", "why_tests_cant": "The fill runs through arbitrarily many layers of an arbitrary shape and keeps only the last two: that nothing is visited again or missed holds for all shapes or not at all.", "anchors": ["kwant/lattice.py:Polyatomic.shape,Polyatomic.__init__,Monatomic.__init__,Monatomic.closest"]}
{"id": "C103", "title": "closest() and n_closest() return the closest sites", "statement": "For a monatomic lattice with arbitrary linearly independent primitive vectors and offset, closest(pos) returns the tag of a site whose distance to pos is minimal; n_closest(pos, n) returns n different tags in order of distance, and no other site is closer than any of them; closest(lat.pos(tag)) == tag; construction and both searches end.", "quantifier": "all lattices in all dimensions, all positions (also outside of the lattice plane), all n", "why_tests_cant": "The basis may be as skewed as one likes; that the reduced basis and the bounded search cannot miss a closer site is a statement about all of them.", "anchors": ["kwant/lattice.py:Monatomic.__init__,Monatomic.n_closest,Monatomic.closest,Monatomic.pos", "kwant/linalg/lll.py:lll,cvp"]}
{"id": "C105", "title": "wire() yields one period of an infinite cylinder", "statement": "For a symmetry with one period commensurate with the lattice, iterating lattice.wire(center, radius)(symmetry) yields exactly those sites of the fundamental domain that lie within distance radius of the axis through center along the period and for which an equivalent site is reached by a flood fill of the whole infinite cylinder.", "quantifier": "all lattices, centers, radii, commensurate periods and iteration orders", "why_tests_cant": "The flood fill sees only the fundamental domain; that it reaches what the fill of an infinite cylinder reaches quantifies over infinitely many walks.", "anchors": ["kwant/lattice.py:Polyatomic.wire,Polyatomic.shape"]}
{"id": "C106", "title": "has_subgroup and subgroup of TranslationalSymmetry mean what they say", "statement": "sym.has_subgroup(other) is true if and only if every period of other is an integer combination of the periods of sym; then, on the sites of every family added to both, each element of other acts as an element of sym. sym.subgroup(*generators) succeeds exactly for linearly independent generators, its periods are the integer combinations given by the generators, and it is a subgroup in the sense of has_subgroup.", "quantifier": "all sets of linearly independent periods, all generators, all families with whatever other_vectors", "why_tests_cant": "It ranges over all lattices of periods and all integer combinations of them.", "anchors": ["kwant/lattice.py:TranslationalSymmetry.subgroup,TranslationalSymmetry.has_subgroup"]}
{"id": "C107", "title": "add_site_family accepts exactly the commensurate lattices, and the cached data describe translations by the periods", "statement": "TranslationalSymmetry.add_site_family(fam, other_vectors) raises ValueError exactly if a period is not a lattice vector of the family, or other_vectors are too many or linearly dependent on the periods; it never fails to complete them to a basis. Afterwards, acting with the group element g moves the position of every site of the family by the sum of g_i times period i.", "quantifier": "all lattices, numbers of periods, periods, other_vectors, sites and group elements", "why_tests_cant": "The completion picks unit vectors greedily from singular vectors; that this always ends in an invertible matrix holds for all integer matrices or not at all.", "anchors": ["kwant/lattice.py:TranslationalSymmetry.add_site_family,TranslationalSymmetry.act"]}
{"id": "C104", "title": "neighbors(n) returns exactly one of each pair of n-th nearest neighbor hoppings", "statement": "For a lattice with any number of sublattices, neighbors(n) returns hopping kinds without repetition such that every pair of sites whose distance is the n-th one (exactly n different distances between sites are smaller) is matched, in exactly one direction, by exactly one of them, and all matching hoppings have that length; of a hopping and its reverse on one sublattice the lexicographically larger one is returned. It ends and raises no exception, for all sufficiently small tolerances.", "quantifier": "all lattices in all dimensions, all numbers of sublattices and offsets (also out of the lattice plane), all n, all tolerances below a bound that depends on the lattice and n", "why_tests_cant": "Neighbors are searched per pair of sublattices and merged; that the n closest groups of each pair suffice and that no shell is missed or merged holds for all lattices or not at all.", "anchors": ["kwant/lattice.py:Polyatomic.neighbors,Monatomic.n_closest", "kwant/builder.py:HoppingKind"]}
{"id": "C108", "title": "The mode eigenproblem of a lead is its Bloch problem, whichever algorithm is chosen", "statement": "For a lead with cell Hamiltonian h_cell and hopping h_hop, the eigenproblem solved by kwant.physics.modes has, for every value of the argument stabilization and every translation eigenvalue other than zero, solutions in one-to-one correspondence with the wave functions of the infinite lead that satisfy the Schroedinger equation and are multiplied by that eigenvalue from cell to cell; the real-space wave function that is returned for a mode is that wave function.", "quantifier": "all cell Hamiltonians and hoppings of any size (also singular hoppings and non-Hermitian cells), all values of stabilization, all eigenvalues", "why_tests_cant": "Four algorithms are chosen between by condition numbers; tests compare them on sample matrices, equivalence with the infinite system must hold for all matrices.", "anchors": ["kwant/physics/leads.py:setup_linsys,modes"]}
{"id": "C110", "title": "The self-energy of the modes solves the Dyson equation of the lead", "statement": "StabilizedModes.selfenergy() returns Sigma = V^+ G V, where V is the hopping of the lead and G = (E - H - Sigma)^-1 is the surface Green's function of the semi-infinite lead (self-consistency of adding one more cell).", "quantifier": "all leads, all algorithms, all bases of the propagating modes and all Schur bases of the evanescent ones", "why_tests_cant": "Ranges over all matrices and all bases an eigenvalue solver may return.", "anchors": ["kwant/physics/leads.py:StabilizedModes.selfenergy,setup_linsys,compute_block_modes"]}
{"id": "C111", "title": "The broadening of a Hermitian lead is positive semidefinite with rank at most the number of modes", "statement": "For a Hermitian lead whose outgoing propagating modes are normalized to unit current, i (Sigma - Sigma^+) = W W^+ where W has one column per outgoing propagating mode; in particular it is positive semidefinite.", "quantifier": "all Hermitian leads, all algorithms, all bases of modes as in C110", "why_tests_cant": "A spectral inequality for all matrices; current conservation must hold for degenerate and evanescent modes alike.", "anchors": ["kwant/physics/leads.py:StabilizedModes.selfenergy,make_proper_modes"]}
{"id": "C109", "title": "Propagating modes form a normalized, sorted eigenbasis of the velocity", "statement": "Without discrete symmetries, the propagating modes returned for a lead are Bloch solutions at their stated momenta in [-pi, pi); those at the same momentum are orthogonal with norm squared 1/|v|, and the matrix of the derivative of the Bloch Hamiltonian between them is diagonal with entries sign(v); together they span all propagating solutions; exactly the first half has negative velocity; negative-velocity modes are sorted by increasing momentum, the others by decreasing momentum, and modes of equal momentum by increasing velocity. The modes carry unit current and no current flows between different ones. An error is raised exactly if a mode has (nearly) zero velocity or the numbers of left- and right-movers differ. The result does not depend on uninitialised memory.", "quantifier": "all Hermitian leads, all algorithms, all bases of the eigenspaces that the eigenvalue solver may return, all degeneracies, all initial memory contents", "why_tests_cant": "degenerate eigenspaces come with arbitrary bases, and tests see one basis per run; memory contents are not controlled by tests", "anchors": ["kwant/physics/leads.py:make_proper_modes", "kwant/physics/leads.py:PropagatingModes"]}
{"id": "C112", "title": "The scattering matrix is unitary", "statement": "If the Hamiltonian of the scattering region is Hermitian, the energy is real and all leads are given by modes that carry unit current (as physics.modes provides), then the scattering matrix between all leads computed by smatrix is unitary: S^+ S = S S^+ = 1. The transmissions into, and out of, each lead add up to its number of modes. With additional leads given by self-energies, the norm that is missing in the outgoing modes is exactly what these leads absorb.", "quantifier": "all systems with any number of leads, interfaces that may overlap, numbers of modes and orbitals, all energies", "why_tests_cant": "A global algebraic identity that no number of examples establishes; floating point tests see it up to rounding for a few systems.", "anchors": ["kwant/solvers/common.py:SparseSolver.smatrix,_make_linear_sys", "kwant/physics/leads.py:StabilizedModes"]}
{"id": "C113", "title": "The modes of a lead: numbers, solutions and currents", "statement": "For a Hermitian lead (without symmetries inside the block), at an energy that is not at a band edge or in a flat band, the modes computed for a block satisfy: there are as many modes moving towards the scattering region as away from it, and together with the evanescent modes the outgoing ones are as many as the rank of the hopping; the propagating modes are Bloch waves with the momenta returned; the evanescent modes are solutions in the lead that decay away from the scattering region, and are linearly independent; each incoming mode carries current -1, each outgoing mode +1, evanescent modes none, and there is no current between different modes. The only error that can be raised, once the linear system is set up, is due to a Bloch wave whose velocity is below the tolerance: the numbers of left- and right-movers never disagree.", "quantifier": "all Hermitian cell Hamiltonians and hoppings of any size and rank, all three ways to set up the linear system, all orders of eigenvalues", "why_tests_cant": "The classification of eigenvalues, the count of modes and the vanishing of the current of evanescent modes are consequences of conservation laws that hold for every lead; tests check them for a few leads and up to rounding.", "anchors": ["kwant/physics/leads.py:compute_block_modes,unified_eigenproblem"]}
{"id": "C114", "title": "The modes of a lead with conservation laws and discrete symmetries", "statement": "kwant.physics.modes, given projectors on the blocks of a conservation law and discrete symmetries that relate different blocks, returns the modes of the whole lead, however the modes of a block are obtained (by calculation, as a copy of an identical block, or by time reversal, particle-hole or chiral symmetry from another block): all returned wave functions are Bloch waves of the lead with the momenta and velocities returned, they are complete, orthogonal at equal momentum and normalized to unit current; the first half moves towards the scattering region and the second half away; the modes are ordered by blocks, block_nmodes counts them, and every wave function lies in the space of its block; the stabilized modes are those wave functions and decaying solutions in the lead, carry the currents +1, -1 and 0, and their number is the rank of the hopping. A hopping to only some of the orbitals of the cell is treated as the square one. The only errors are those of the calculation for a block.", "quantifier": "all Hermitian leads of any size, all complete orthonormal sets of projectors that commute with the Hamiltonian, all symmetries that relate different blocks, any number of blocks", "why_tests_cant": "The relation between modes of different blocks, with conjugation, sign and reordering, must hold for every combination of symmetries and number of modes; tests have blocks with few modes, for which wrong permutations are not visible.", "anchors": ["kwant/physics/leads.py:modes,transform_modes,group_halves,nonzero_symm_projection"]}
{"id": "C115", "title": "The self-energy of a lead is that of outgoing waves", "statement": "For a lead at an energy that is not at a band edge or in a flat band, and without a bound state at the end of the isolated lead, the self-energy returned by physics.selfenergy, or by the modes of physics.modes with any conservation laws, replaces the semi-infinite lead exactly: for all amplitudes at the interface there is exactly one wave in the lead that continues them and consists only of Bloch waves moving away from the scattering region and a decaying part, and the self-energy applied to the amplitudes gives what hops from this wave back to the interface. Consequently the self-energy is determined by the lead, does not depend on the algorithm or basis, solves the Dyson equation, and its broadening i(Sigma - Sigma^+) is positive semidefinite.", "quantifier": "all Hermitian leads of any size, hoppings of any rank to any number of interface orbitals, all algorithms for the linear system, all bases of degenerate eigenspaces", "why_tests_cant": "The self-energy is defined by waves in an infinite lead; a test can only compare with a few analytically known or numerically approximated ones.", "anchors": ["kwant/physics/leads.py:selfenergy,modes,StabilizedModes.selfenergy,compute_block_modes,make_proper_modes"]}
{"id": "C116", "title": "The scattering matrix is that of the infinite system", "statement": "For a finite Hermitian system with semi-infinite leads, at an energy that is not at a band edge or in a flat band of a lead: the elements of the scattering matrix returned by smatrix (for any requested leads) are the amplitudes of the outgoing modes, far from the scattering region, in the solution of the Schroedinger equation of the whole infinite system in which one incoming mode has amplitude one. These amplitudes are determined by the infinite system and the modes alone, the matrix of all leads is unitary, and transmission returns the corresponding probabilities. If the infinite system has no bound state at this energy, smatrix succeeds and its linear system has exactly one solution.", "quantifier": "all Hermitian systems with any number of leads of any size with conservation laws and discrete symmetries, all energies outside of band edges and flat bands, all lists of requested leads", "why_tests_cant": "The property speaks about solutions in an infinite space with boundary conditions at infinity; tests can compare with a few analytically known scattering matrices up to rounding.", "anchors": ["kwant/solvers/common.py:SparseSolver.smatrix,_make_linear_sys,SMatrix.transmission", "kwant/physics/leads.py:modes"]}
{"id": "C117", "title": "The Green's function is the response of the infinite system and gives the same transmissions as the scattering matrix", "statement": "For a finite Hermitian system with semi-infinite leads, at an energy that is not at a band edge or in a flat band of a lead, and with leads that have no bound state at their end: the columns of the matrix returned by greens_function (for any requested leads) are, at the orbitals of the interfaces, the solution of (E - H) psi = delta in the whole infinite system with a source at an orbital of an interface, in which only outgoing waves leave through the leads. GreensFunction.transmission between any two requested leads, equal or not, returns the same number as the scattering matrix: the sum of the probabilities of all pairs of modes (Fisher-Lee relation, including reflection). If the infinite system has no bound state at this energy, greens_function succeeds, and the response is unique.", "quantifier": "all Hermitian systems with any number of leads of any size, all energies outside of band edges and flat bands, all lists of requested leads", "why_tests_cant": "The property equates two algorithms on all systems and speaks about an infinite space; tests can compare a few systems up to rounding.", "anchors": ["kwant/solvers/common.py:SparseSolver.greens_function,_make_linear_sys,GreensFunction._transmission,GreensFunction._a_ttdagger_a_inv", "kwant/physics/leads.py:selfenergy"]}
{"id": "C118", "title": "Wave functions are the scattering states, and ldos is the local density of states, of the infinite system", "statement": "For a finite Hermitian system with semi-infinite leads, at an energy that is not at a band edge or in a flat band of a lead: row b of wave_function(...)(lead) is, at all orbitals of the scattering region, the solution of the Schroedinger equation of the whole infinite system in which mode b of the lead comes in with amplitude one and no other mode comes in; without bound states there is only one. ldos returns for each orbital -Im G / pi, where G is the amplitude at the orbital in the solution of (E - H) psi = delta in the whole infinite system with a source at this orbital and only outgoing waves in the leads, whatever the number of right-hand sides solved at once.", "quantifier": "all Hermitian systems with any number of leads of any size, all energies outside of band edges and flat bands, all orbitals, all batch sizes", "why_tests_cant": "The property speaks about solutions in an infinite space and equates a sum over modes with a Green's function; tests can compare a few systems up to rounding.", "anchors": ["kwant/solvers/common.py:SparseSolver.wave_function,WaveFunction,SparseSolver.ldos"]}
{"id": "C119", "title": "Chebyshev moments of SpectralDensity do not depend on the calls that produced them", "statement": "After the construction of a SpectralDensity and any sequence of calls of add_moments and add_vectors, successful or refused, it holds for every vector v_r of the vector factory used so far and every moment n < num_moments exactly <v_r| T_n((H - b) / a) |v_r> (density of states), respectively operator(v_r, T_n((H - b) / a) v_r). A refused call leaves the object unchanged, and calls are refused exactly if the arguments are not positive integers, there are not enough vectors, or moments are added without accumulate_vectors=True. Objects with the same numbers of moments and vectors are the same, whatever calls led to them.", "quantifier": "all Hermitian Hamiltonians (for operators all matrices), all vectors, finite or infinite iterables, all sequences of calls", "why_tests_cant": "The state depends on the history of calls and on the parity of the numbers of moments (two moments are obtained per product); tests try a few histories.", "anchors": ["kwant/kpm.py:SpectralDensity,SpectralDensity.add_moments,SpectralDensity.add_vectors,SpectralDensity._update_moments_list,_VectorFactory"]}
{"id": "C120", "title": "The Hamiltonian is mapped strictly into the interval of the Chebyshev polynomials", "statement": "If the bounds contain the spectrum and 0 < eps < 2, every eigenvalue x of the Hamiltonian becomes (x - b) / a with modulus at most 1 - eps / 2, and the attribute bounds strictly contains the spectrum. Bounds are refused exactly if their distance is at most eps / 4 times the modulus of their sum.", "quantifier": "all Hamiltonians, bounds and eps between 0 and 2", "why_tests_cant": "Outside of the interval the Chebyshev recursion explodes exponentially; a boundary case needs an eigenvalue at the exact bound.", "anchors": ["kwant/kpm.py:_rescale,SpectralDensity.__init__"]}
{"id": "C121", "title": "energies and densities agree with evaluation at an energy", "statement": "energies has 2 num_moments elements in ascending order, strictly inside of bounds, and densities[k], calculated by fast Fourier transform, is what a call with energies[k] returns, for any kernel.", "quantifier": "all spectral densities, any numbers of moments, any kernels, any operators with scalar or array results", "why_tests_cant": "Two different algorithms must agree for every size; reversed order or shifted nodes are hidden by symmetric spectra.", "anchors": ["kwant/kpm.py:SpectralDensity.__call__,SpectralDensity.energies,_calc_fft_moments,_chebyshev_nodes"]}
{"id": "C122", "title": "integrate is exact for polynomials and normalized", "statement": "Without a kernel, integrate(f) for any polynomial f of degree less than num_moments is exactly the mean over the vectors of <v_r|f(H)|v_r> (with an operator: operator(v_r, f(H) v_r)), hence Tr f(H) divided by the number of orbitals when the vectors are all unit vectors; with mean=False the same for each vector. With the Jackson or Lorentz kernel integrate() is the mean of <v_r|v_r>.", "quantifier": "all Hermitian Hamiltonians, all vectors, all polynomials below the number of moments", "why_tests_cant": "A quadrature rule is exact for a class of functions; tests sample functions up to rounding and stochastic noise.", "anchors": ["kwant/kpm.py:SpectralDensity.integrate,SpectralDensity._moments,jackson_kernel,lorentz_kernel,_calc_fft_moments"]}
{"id": "C123", "title": "The density of states is never negative", "statement": "For the density of states of a Hermitian Hamiltonian with its spectrum within the bounds, with the Jackson kernel or the Lorentz kernel (any nonzero parameter), the values returned for any energy inside the bounds and all elements of densities are real and nonnegative, for every number of moments and all vectors.", "quantifier": "all Hermitian Hamiltonians, numbers of moments, vectors and energies within the bounds", "why_tests_cant": "Positivity is an inequality for all energies, orders and spectra; tests sample.", "anchors": ["kwant/kpm.py:jackson_kernel,lorentz_kernel,SpectralDensity.__call__"]}
{"id": "C127", "title": "Operators accept exactly the onsite matrices and Hamiltonians that fit the system", "statement": "A dictionary of onsite matrices is accepted if and only if the matrix of every family is square with as many rows as the family has orbitals (and Hermitian, unless check_hermiticity is off), and each site then has the matrix of its family. A single onsite matrix is accepted if and only if it is square (and Hermitian), and is a number or all sites have as many orbitals as it has rows. With check_hermiticity a Hamiltonian block of the right shape is accepted if and only if the block in the opposite direction is its Hermitian conjugate.", "quantifier": "all systems, all onsite arguments, all Hamiltonians", "why_tests_cant": "Acceptance must be exact for all sizes and entries; a missed case silently gives wrong expectation values.", "anchors": ["kwant/operator.pyx:_normalize_onsite,_check_onsite,_check_ham,_is_herm_conj,_DictOnsite"]}
{"id": "C124", "title": "The Correlator computes the Kubo-Bastin response from its moments", "statement": "For every Hamiltonian, operators and vectors and after any history of add_moments and add_vectors (with accumulate_vectors; otherwise add_vectors only), moments_matrix[m, n] is the mean over the vectors of <T_m(h) O1 v | O2 T_n(h) v> (Tr[O1^+ T_m O2 T_n]/d for the unit vectors) for the numbers of moments and vectors the object reports; refused calls leave it unchanged. A call with temperature >= 0 returns 8/a^2 times Simpson's rule for the Fermi function times the sum over m, n of g_m g_n mu_mn (rho_m dG+_n/dE + dG-_m/dE rho_n), with the Chebyshev coefficients of the spectral function and of the retarded and advanced Green's functions; negative temperatures are refused.", "quantifier": "all Hamiltonians, operators, vectors, kernels, histories of calls, energies, chemical potentials, temperatures", "why_tests_cant": "Two interleaved objects must stay synchronized over all histories; signs and transpositions cancel in symmetric tests.", "anchors": ["kwant/kpm.py:Correlator,fermi_distribution"]}
{"id": "C125", "title": "LocalVectors and RandomVectors give local densities of states and traces", "statement": "LocalVectors(syst, where) has as many elements as there are orbitals in where and yields their unit vectors in order (without where: all orbitals), so that a spectral density built with them is exactly the mean of the local densities of states. Vectors of RandomVectors have entries of modulus one in the orbitals of where and zeros elsewhere, and the mean of <v|A|v> over the random numbers is the sum of the diagonal entries of A in these orbitals, for every matrix A.", "quantifier": "all systems, all selections of sites, all matrices; the mean is over independent uniform random numbers", "why_tests_cant": "Statistical statements are only tested with wide tolerances; orbital numbering must be right for all mixtures of families.", "anchors": ["kwant/kpm.py:LocalVectors,RandomVectors,_from_where_to_orbs,_normalize_orbs_where"]}
{"id": "C126", "title": "Velocity operators of conductivity and the Fermi function", "statement": "The velocity operator that conductivity builds for a direction is i[H, x] with every orbital at the position of its site, Hermitian if H is, and its expectation value is the rate of change of that of the position for every solution of the Schroedinger equation; directions that do not exist are refused. The Fermi function lies in [0, 1], decreases with energy, satisfies f(mu+x) = 1 - f(mu-x), is a step at zero temperature, and negative temperatures are refused.", "quantifier": "all Hamiltonians, positions, directions, solutions of the Schroedinger equation, energies and temperatures", "why_tests_cant": "Sign conventions and Hermiticity must hold for all matrices and positions.", "anchors": ["kwant/kpm.py:_velocity,conductivity,fermi_distribution"]}
{"id": "C128", "title": "discretize replaces momenta by central differences", "statement": "For every Hamiltonian that is a polynomial in the momenta with position-dependent matrix coefficients in any operator order, the full set of hoppings computed by the discretizer, applied to any wave function, equals the Hamiltonian in which every k_c of a discretized coordinate is replaced by the central difference -i (psi(x+s) - psi(x-s)) / (2 s) and everything else acts by multiplication at its place in the product; s is the grid spacing for summands of odd degree in c and half of it for summands of even degree.", "quantifier": "all Hamiltonians (any number of summands, factors, powers, orderings, matrix size), coordinates, grid spacings, wave functions, positions", "why_tests_cant": "Operator ordering and the rescaling of offsets interact for every word in non-commuting symbols; tests cover a handful of expressions.", "anchors": ["kwant/continuum/discretizer.py:_differentiate,_discretize_summand,_discretize_expression,discretize_symbolic", "kwant/continuum/_common.py:gcd"]}
{"id": "C129", "title": "The hoppings of a discretized Hamiltonian have exactly the expected ranges", "statement": "The offsets of the hoppings of a summand with n_c momenta along c are exactly the integer vectors o with |o_c| <= n_c and n_c - o_c even, divided by two along the coordinates with even n_c; the onsite is always present; an expression without momenta gives an onsite only.", "quantifier": "all polynomial Hamiltonians and coordinates", "why_tests_cant": "Missing or spurious hoppings depend on the degree along every coordinate.", "anchors": ["kwant/continuum/discretizer.py:_discretize_summand,_discretize_expression"]}
{"id": "C130", "title": "discretize keeps exactly one hopping of each pair", "statement": "Of the hoppings of a discretized Hamiltonian the onsite and exactly one of each pair of opposite offsets are kept, namely the one whose first nonzero component is positive, and the value kept is the one of the full discretization.", "quantifier": "all polynomial Hamiltonians and coordinates", "why_tests_cant": "The code keeps the upper half of a sorted list, which is correct only if the list is symmetric.", "anchors": ["kwant/continuum/discretizer.py:discretize_symbolic"]}
{"id": "C131", "title": "The discretization of a Hermitian Hamiltonian is Hermitian", "statement": "If the continuum Hamiltonian equals its formal adjoint (order of the factors reversed, coefficients conjugated, matrix transposed), the hopping to the opposite offset at the displaced position is the Hermitian conjugate of the hopping, so that dropping half of the hoppings loses nothing.", "quantifier": "all formally Hermitian polynomial Hamiltonians with position-dependent coefficients", "why_tests_cant": "Needs operator ordering to be respected for all words.", "anchors": ["kwant/continuum/discretizer.py:_discretize_expression,discretize_symbolic,build_discretized"]}
{"id": "C132", "title": "The builder returned by discretize acts as the discretized Hamiltonian", "statement": "For a formally Hermitian Hamiltonian the translationally invariant builder returned by discretize has, between any two sites, exactly the matrix element of the discretized Hamiltonian on the grid with the given spacings (including the coupling of coefficients evaluated at the positions of the sites), is Hermitian, and its action on any wave function on the grid is the Hamiltonian with central differences.", "quantifier": "all formally Hermitian polynomial Hamiltonians, grids, sites and wave functions", "why_tests_cant": "Sign conventions of hopping directions and of the site at which coefficients are evaluated must agree for all hoppings.", "anchors": ["kwant/continuum/discretizer.py:discretize,build_discretized,_builder_value"]}
{"id": "C133", "title": "The discretized Hamiltonian converges to the continuum Hamiltonian", "statement": "For smooth coefficients and wave functions the discretized Hamiltonian acting on the wave function converges to the differential operator (k_c = -i d/dc) acting on it when the grid spacings go to zero, at every point.", "quantifier": "all polynomial Hamiltonians with smooth coefficients, all smooth wave functions, points and ways in which the spacings go to zero", "why_tests_cant": "A limit, for all functions.", "anchors": ["kwant/continuum/discretizer.py:_differentiate,_discretize_expression"]}
{"id": "C134", "title": "Plane waves see the dispersion with k replaced by sin(k s)/s", "statement": "For Hamiltonians with constant coefficients the plane wave exp(iqx) is an eigenstate of the discretization, with every k_c replaced by sin(q_c s)/s, s the grid spacing (half of it for even degree); k^2 gives 2 (1 - cos(q a)) / a^2.", "quantifier": "all constant polynomial Hamiltonians, momenta, grid spacings", "why_tests_cant": "Holds for all momenta.", "anchors": ["kwant/continuum/discretizer.py:_discretize_expression"]}
{"id": "C135", "title": "discretize refuses grids, coordinates and names that do not fit", "statement": "Hamiltonians with the reserved names a_x, a_y, a_z are refused; without coords the coordinates are exactly those whose momenta occur, sorted, and it is an error if there are none; explicit coords are accepted if and only if they are not empty, sorted and substrings of xyz; with a number (or nothing) as grid the lattice has this spacing (1) in all directions and no offset; refused are: no or unsorted coordinates, grid together with grid_spacing, square matrices of primitive vectors of another dimension or not diagonal, and a wrong number of orbitals.", "quantifier": "all arguments", "why_tests_cant": "Acceptance must be exact over all combinations of arguments.", "anchors": ["kwant/continuum/discretizer.py:discretize_symbolic,build_discretized"]}
{"id": "C136", "title": "The ladder operators of the Landau basis have the commutator of the field", "statement": "The operators that to_landau_basis puts in the place of two momenta satisfy [k_0, k_1] = -iB for both signs of B, if a and a^dagger are swapped for a negative field as the evaluation of the terms does; the prefactor the code computes for a word of ladder operators on level n is the matrix element of the product of the operators.", "quantifier": "all fields, all words of ladder operators, all levels", "why_tests_cant": "Holds for words of every length and every level.", "anchors": ["kwant/continuum/landau_levels.py:to_landau_basis,_ladder_term,_evaluate_ladder_term"]}
{"id": "C137", "title": "Landau level matrix elements can be evaluated", "statement": "If no summand of the Hamiltonian has more than six momenta of the plane, all matrix elements between Landau levels can be evaluated without error; with seven this fails, since a lowered level below zero makes the argument of the square root negative although the matrix element is zero.", "quantifier": "all Hamiltonians, levels, fields, positions", "why_tests_cant": "The intermediate level of every word of operators has to be followed.", "anchors": ["kwant/continuum/landau_levels.py:_evaluate_ladder_term,discretize_landau"]}
{"id": "C138", "title": "discretize_landau builds the Hamiltonian in the Landau level basis", "statement": "For a field that is not negative the builder acts, on states in the first N Landau levels, as the Hamiltonian with the two momenta replaced by ladder operators and the third one by central differences in the normal direction, truncated to N levels.", "quantifier": "all formally Hermitian polynomial Hamiltonians with coefficients that depend on the normal coordinate, all N, grid spacings, states, and fields that are not negative", "why_tests_cant": "Needs the direction of every hopping and the position where coefficients are evaluated to be right for all words of operators.", "anchors": ["kwant/continuum/landau_levels.py:discretize_landau,_builder_value"]}
{"id": "C139", "title": "discretize_landau for a negative field, and Hermiticity", "statement": "The matrix built is Hermitian for every field, and for a negative field it is (up to a change of basis of the Landau levels) the Hamiltonian for that field.", "quantifier": "all formally Hermitian polynomial Hamiltonians, all N, grid spacings, sites and fields", "why_tests_cant": "The sign of the field changes the order of all operators.", "anchors": ["kwant/continuum/landau_levels.py:discretize_landau,_builder_value,_evaluate_ladder_term"]}
{"id": "C140", "title": "Choice of the two momenta, and the field parameter", "statement": "momenta may be omitted, a pair of the indices 0, 1, 2 or a pair of the names k_x, k_y, k_z, and everything else is refused; the normal coordinate is the third one if the two are different; every value function has the field as a parameter or sets it.", "quantifier": "all arguments, all names of parameters", "why_tests_cant": "Acceptance must be exact over all arguments; parameter names are arbitrary strings.", "anchors": ["kwant/continuum/landau_levels.py:_normalize_momenta,_find_normal_coordinate,_builder_value"]}
{"id": "C141", "title": "The Fibonacci heap never follows a NULL pointer, loops or leaves its arrays", "statement": "No operation on the heap follows a NULL pointer, runs for ever, or accesses the table of roots by rank outside of its 100 elements.", "quantifier": "all numbers of nodes and all histories of insertions, decreases and removals of the minimum", "why_tests_cant": "The shape of the pointer structure depends on the whole history; there is no bound on its length.", "anchors": ["kwant/graph/dijkstra.pyx:add_sibling,add_child,remove,insert_node,decrease_val,link,remove_min"]}
{"id": "C142", "title": "The Fibonacci heap is a priority queue", "statement": "remove_min returns a node that is in the queue and has the smallest value of all nodes in the queue, and the heap says it is empty exactly if it is.", "quantifier": "all histories of insertions, decreases and removals of the minimum, with all values", "why_tests_cant": "An error in one sibling pointer shows up only after a particular later history.", "anchors": ["kwant/graph/dijkstra.pyx:insert_node,decrease_val,link,remove_min"]}
{"id": "C143", "title": "dijkstra_directed finds shortest paths with its own heap", "statement": "With the pointer-level Fibonacci heap, a path is returned if and only if there is one; it has no repeated nodes, the returned length is its length, and no walk is shorter.", "quantifier": "all directed graphs with non-negative (possibly infinite) weights, sources and targets", "why_tests_cant": "Composes the histories of the heap with the search over all graphs.", "anchors": ["kwant/graph/dijkstra.pyx:dijkstra_directed,_calculate_path"]}
{"id": "C144", "title": "Shot noise of two terminals", "statement": "two_terminal_shotnoise of a unitary scattering matrix is the sum of T(1-T) over the transmission eigenvalues, whichever of the four blocks was calculated; it is between zero and a quarter of the number of modes; other numbers of leads are refused.", "quantifier": "all unitary scattering matrices of two leads with any numbers of modes, all four choices of leads", "why_tests_cant": "Ranges over all unitary matrices.", "anchors": ["kwant/physics/noise.py:two_terminal_shotnoise"]}
{"id": "C145", "title": "Interpolated currents are the hoppings convoluted with the bump", "statement": "At every point of the grid, interpolate_current gives the sum over hoppings of the current times the integral of the bump along the straight line between the sites, up to one constant factor; it is linear in the current and zero at the border; the grid contains all sites and half a width more; the width is the one asked for or four times the shortest hopping (longer than a thousandth of the longest); arrays of the wrong length are refused and everything else with hoppings in up to three dimensions succeeds.", "quantifier": "all systems with hoppings in one, two or three dimensions, all currents, widths and numbers of points", "why_tests_cant": "The slices of the grid must contain the whole support of every bump for all positions and widths; the closed form of the smoothing function must be the integral for all distances.", "anchors": ["kwant/plotter.py:interpolate_current,_interpolate_field,_smoothing,_optimal_width"]}
{"id": "C146", "title": "Interpolated densities are the sites convoluted with the bump", "statement": "At every point of the grid, interpolate_density gives the sum over sites of the density times the bump, up to one constant factor; it is zero at the border and where it is masked; the width is the one asked for or four times the shortest hopping; arrays of the wrong length are refused and everything else in up to three dimensions succeeds.", "quantifier": "all systems in one, two or three dimensions, all densities, widths and numbers of points", "why_tests_cant": "The slices of the grid must contain the whole support of every bump for all positions and widths.", "anchors": ["kwant/plotter.py:interpolate_density,_interpolate_field,_bump,_mask,_optimal_width"]}
{"id": "C147", "title": "Interpolated currents conserve what the discrete ones conserve", "statement": "The divergence of the smoothed current is the smoothed current that leaves the sites; where all sites conserve the current the smoothed field has no divergence anywhere.", "quantifier": "all systems in any dimension, all currents and points of space", "why_tests_cant": "Tests check the divergence numerically for a few systems on a grid.", "anchors": ["kwant/plotter.py:interpolate_current,_smoothing"]}
{"id": "C148", "title": "Interpolated fields are normalized", "statement": "The integral of the interpolated density is the sum of the densities, and the flux of the interpolated current through a plane away from the sites is the current of the hoppings that cross it.", "quantifier": "all systems in one, two and three dimensions, all widths, all planes", "why_tests_cant": "Tests compare with tolerances that hide constant factors.", "anchors": ["kwant/plotter.py:interpolate_density,interpolate_current,_smoothing_cross_sections"]}
{"id": "C149", "title": "Peierls phases of a system with leads give the right flux through every closed walk", "statement": "For a system with leads that magnetic_gauge accepts (patches of different leads not adjacent, unit cells of the leads connected, at least one hopping of the reduced scattering region at an interface site), with fields whose vector potentials agree on the hoppings of the lead patches, the phases of the scattering region combined with those of the leads multiply to exp(i pi flux) around every closed walk in the scattering region plus one cell of every lead; the phases are unit numbers and reversing a hopping conjugates them; a wrong number of fields is refused.", "quantifier": "all systems with any number of leads and any padding, all fields, all closed walks, all choices of spanning trees and shortest paths", "why_tests_cant": "The links fixed by the leads, the spanning tree of the cut region and the tree of components must together contain no closed loop for every system; tests look at a few lattices.", "anchors": ["kwant/physics/gauge.py:_loops_in_composite,_extended_scattering_region,_interior_links,_make_metatree,_spanning_tree_composite,_previous_phase_composite,_peierls_composite"]}
{"id": "C150", "title": "magnetic_gauge accepts exactly the systems whose lead gauges can be combined", "statement": "A system with leads is refused exactly if the hoppings whose phases are fixed by the leads close a loop through several leads; all others get their phases.", "quantifier": "all systems with any number of leads, interfaces and paddings", "why_tests_cant": "The condition is a count of nodes, links and components of a graph of leads; tests try a few geometries.", "anchors": ["kwant/physics/gauge.py:_check_composite_system,_interior_links,_spanning_tree_composite"]}
{"id": "C151", "title": "builder_to_model gives the Bloch Hamiltonian of the infinite system", "statement": "For every builder with translational symmetry whose sites have norbs, and whose values depend on the free parameters in an affine way, the model evaluated at any momentum k and real parameters has the matrix elements sum over cells of exp(i k d) times the matrix element of the infinite system (with d the difference of positions, or of cells), so that the Hamiltonian of the builder applied to a Bloch wave is the model applied to its amplitudes; hoppings of the builder and their conjugates are each counted once; it fails exactly if a site has no norbs; for fewer periods than dimensions the projection keeps lengths and angles of periods and puts them in triangular form.", "quantifier": "all builders, all momenta, all parameter values, all fixed parameters, real_space or not", "why_tests_cant": "Tests compare a few lattices at random momenta.", "anchors": ["kwant/qsymm.py:builder_to_model"]}
{"id": "C152", "title": "model_to_builder gives a builder with the Hamiltonian of the model, and the way back gives the model", "statement": "If model_to_builder accepts a model with a Hermitian Hamiltonian, the matrix element of the builder between any two sites of the infinite lattice is the Fourier component of the model at their displacement; converting the builder back gives a model with the same Hamiltonian at every momentum and for all real parameters (coefficients affine in the parameters), with orbitals in the order of sites of the builder.", "quantifier": "all models with any number of terms and orbitals, all lattices and positions of atoms, all momenta and parameters", "why_tests_cant": "Hermitian conjugate terms are set one after the other on the same hopping and terms with the same displacement are accumulated; this must come out right for every set of terms.", "anchors": ["kwant/qsymm.py:model_to_builder,builder_to_model"]}
{"id": "C153", "title": "model_to_builder accepts exactly the models on the given lattice", "statement": "A model is converted exactly if every nonzero block of every term connects two sites of the lattice with the given positions.", "quantifier": "all models, lattices, positions", "why_tests_cant": "Tests try a few models.", "anchors": ["kwant/qsymm.py:model_to_builder"]}
{"id": "C154", "title": "phs_symmetrization returns particle-hole symmetric wave functions of the same space", "statement": "For an orthonormal set of wave functions at a momentum k = -k and a unitary particle-hole operator P (an antiunitary symmetry), the returned wave functions are an orthonormal basis of the same space; if P^2 = 1 every one of them is an eigenstate of P, if P^2 = -1 their number is even and they come in consecutive pairs psi, P psi.  ValueError is raised exactly if the space is not closed under P or P^2 is neither 1 nor -1 on it.", "quantifier": "all wave functions, all numbers of modes, all unitary particle-hole operators, every outcome of QR and Schur decompositions permitted by their contracts", "why_tests_cant": "The square root of a unitary matrix and the choice of pairs must work for every degeneracy of its eigenvalues; tests try random matrices, where degeneracies do not occur.", "anchors": ["kwant/physics/leads.py:phs_symmetrization"]}
{"id": "C155", "title": "The square root in phs_symmetrization stays away from its branch cut", "statement": "The phase that is chosen for the branch cut is at least pi divided by the number of modes away from every eigenvalue, so that the square root depends on the eigenvalues in a Lipschitz way with constant half the number of modes: equal or nearly equal eigenvalues get equal or nearly equal roots.", "quantifier": "all numbers of modes, all eigenvalues on the unit circle", "why_tests_cant": "Needs a bound for all spectra, including those with eigenvalues on both sides of -1.", "anchors": ["kwant/physics/leads.py:phs_symmetrization"]}
{"id": "C156", "title": "With time-reversal symmetry the outgoing modes are the time-reversed incoming modes", "statement": "For a lead with time-reversal symmetry T, make_proper_modes returns proper modes (as in C109: solutions at the given momentum, orthogonal and with diagonal velocity operator at each momentum, complete, normalized to unit current, sorted), and the outgoing modes are T applied to the incoming ones, in the same order, with opposite velocity and momentum.  The symmetry does not change which errors are raised.", "quantifier": "all leads with a time-reversal operator, all numbers of orbitals and modes, all outcomes of the numerical routines permitted by their contracts", "why_tests_cant": "The pairing relies on two sort orders being mirror images for every spectrum; tests use random Hamiltonians without degenerate momenta.", "anchors": ["kwant/physics/leads.py:make_proper_modes,PropagatingModes"]}
{"id": "C157", "title": "With chiral symmetry the outgoing modes are the chiral partners of the incoming modes", "statement": "For a lead with chiral symmetry C and no other symmetry, make_proper_modes returns proper modes (as in C109), and the wave functions of the outgoing modes are those of the incoming modes multiplied by C, with equal momentum and opposite velocity.  The symmetry does not lead to additional errors.", "quantifier": "all leads with a chiral symmetry operator, all numbers of orbitals and modes, all outcomes of the numerical routines permitted by their contracts", "why_tests_cant": "The pairing relies on the order of velocities at each momentum for every spectrum; tests use random Hamiltonians without degenerate momenta.", "anchors": ["kwant/physics/leads.py:make_proper_modes,PropagatingModes"]}
{"id": "C158", "title": "With particle-hole symmetry the modes are particle-hole partners", "statement": "For a lead with particle-hole symmetry P and no other symmetry, make_proper_modes returns proper modes (as in C109): incoming modes at positive momenta k and at -k are partners, psi(-k) = P psi(k), in mirror positions, and the same for outgoing modes; at the momenta 0 and pi every mode satisfies P psi = psi if P^2 = 1, and the modes come in neighbouring pairs psi, P psi if P^2 = -1.  An assertion fails exactly if the number of modes at 0 or at pi is odd.", "quantifier": "all leads with a particle-hole symmetry operator, all numbers of orbitals and modes, all outcomes of the numerical routines permitted by their contracts", "why_tests_cant": "The pairing by mirror positions relies on the order of all momenta and velocities for every spectrum; tests use random Hamiltonians without degenerate momenta.", "anchors": ["kwant/physics/leads.py:make_proper_modes,phs_symmetrization", "kwant/physics/symmetry.py:DiscreteSymmetry"]}
{"id": "C159", "title": "With time-reversal and particle-hole symmetry both relations hold", "statement": "For a lead with time-reversal symmetry T and particle-hole symmetry P (and thus chiral symmetry), make_proper_modes returns proper modes; the outgoing modes are the time-reversed incoming ones (as in C156), the incoming modes are related by P (as in C158), and the outgoing modes are related by P in the same way.", "quantifier": "all leads with time-reversal and particle-hole symmetry, all signs of P^2 and T^2 accepted by DiscreteSymmetry, all numbers of orbitals and modes, all outcomes of the numerical routines permitted by their contracts", "why_tests_cant": "The outgoing modes obtained by T inherit the relation by P only up to a sign that depends on the symmetry class; tests do not check all classes with all kinds of momenta.", "anchors": ["kwant/physics/leads.py:make_proper_modes", "kwant/physics/symmetry.py:DiscreteSymmetry"]}
{"id": "C160", "title": "Converting a real Schur form to a complex one keeps the matrix and the eigenvalues", "statement": "For every real Schur form (t, q) that contains a 2x2 block, kwant.linalg.convert_r2c_schur returns complex (t2, q2) with t2 upper triangular, q2 unitary and q2 t2 q2^dagger = q t q^T; the diagonal of t2 is the list of eigenvalues of (t, q) in the same order, the one with positive imaginary part first.  Without a 2x2 block the input is returned unchanged.", "quantifier": "all sizes, all real Schur forms in the canonical form of LAPACK, all orthogonal q", "why_tests_cant": "The rotations of the blocks must not disturb each other for any number and position of blocks; tests use random matrices.", "anchors": ["kwant/linalg/decomp_schur.py:convert_r2c_schur"]}
{"id": "C161", "title": "order_schur moves the selected eigenvalues to the front", "statement": "For every real Schur form (t, q) and every selection, kwant.linalg.order_schur(select, t, q) returns a Schur form of the same matrix, with its eigenvalues, in which exactly the selected eigenvalues come first, or raises LinAlgError; the first columns of the returned q span a subspace that the matrix maps to itself.  The result is complex exactly if one of a pair of complex conjugate eigenvalues is selected and the other is not.  If q is None the same holds for t.", "quantifier": "all sizes, all real Schur forms, all selections, with and without q, all outcomes of LAPACK permitted by its documentation", "why_tests_cant": "Selections that separate some of many conjugate pairs take a different path (conversion to complex and recursion); tests try few.", "anchors": ["kwant/linalg/decomp_schur.py:order_schur", "kwant/linalg/lapack.pyx:trsen"]}
{"id": "C162", "title": "Converting a real generalized Schur form to a complex one keeps the pencil and the eigenvalues", "statement": "For every real generalized Schur form (s, t) with a 2x2 block, and q, z given or None, kwant.linalg.convert_r2c_gen_schur raises LinAlgError or returns complex upper triangular (s2, t2) = VL^dagger (s, t) VR with unitary VL, VR and q2 = q VL, z2 = z VR for those given; the quotients of diagonal entries are the generalized eigenvalues of (s, t) in the same order, the one with positive imaginary part first.  Without a 2x2 block the input is returned unchanged.", "quantifier": "all sizes, all real generalized Schur forms in the canonical form of LAPACK, q and z given or not, all outcomes of LAPACK permitted by its documentation", "why_tests_cant": "As C160; moreover the QZ algorithm may return the two eigenvalues of a block in either order.", "anchors": ["kwant/linalg/decomp_schur.py:convert_r2c_gen_schur,order_gen_schur"]}
{"id": "C163", "title": "order_gen_schur moves the selected generalized eigenvalues to the front", "statement": "For every real generalized Schur form (s, t, q, z), q and z each given or None, and every selection, kwant.linalg.order_gen_schur returns a generalized Schur form of the same pencil, with its eigenvalues alpha, beta, in which exactly the selected ones come first, or raises LinAlgError; the first columns of q and z span a pair of deflating subspaces.  The result is complex exactly if a pair of complex conjugate eigenvalues is separated.", "quantifier": "all sizes, all real generalized Schur forms, all selections, q and z given or not, all outcomes of LAPACK permitted by its documentation", "why_tests_cant": "As C161.", "anchors": ["kwant/linalg/decomp_schur.py:order_gen_schur", "kwant/linalg/lapack.pyx:tgsen"]}
{"id": "C164", "title": "evecs_from_schur returns an eigenvector for each selected eigenvalue", "statement": "For every real Schur form (t, q) and every selection (or None, for all), kwant.linalg.evecs_from_schur returns, in the order of the eigenvalues, exactly one left and one right eigenvector of q t q^T for each selected eigenvalue, also if only one of a complex conjugate pair is selected, and the consistency check on the number of columns never fails.", "quantifier": "all sizes, all real Schur forms, all selections", "why_tests_cant": "Pairs occupy two columns in the storage of LAPACK whether one or both are selected; the index arithmetic must be right for every pattern of blocks and selections.", "anchors": ["kwant/linalg/decomp_schur.py:evecs_from_schur", "kwant/linalg/lapack.pyx:trevc,txevc_postprocess"]}
{"id": "C165", "title": "evecs_from_gen_schur returns a generalized eigenvector for each selected eigenvalue", "statement": "For every real generalized Schur form (s, t, q, z) and every selection (or None), kwant.linalg.evecs_from_gen_schur returns, in the order of the eigenvalues, exactly one left and one right eigenvector of the pencil (q s z^T, q t z^T) for each selected eigenvalue alpha/beta, also if only one of a complex conjugate pair is selected, and the consistency check on the number of columns never fails.", "quantifier": "all sizes, all real generalized Schur forms, all selections", "why_tests_cant": "As C164.", "anchors": ["kwant/linalg/decomp_schur.py:evecs_from_gen_schur", "kwant/linalg/lapack.pyx:tgevc,txevc_postprocess"]}
{"id": "C166", "title": "The analytical self-energy of the square lattice is the retarded one", "statement": "For every width, every positive hopping t and every real energy, square_selfenergy(width, hopping, energy) is the retarded self-energy of the semi-infinite strip of the square lattice with onsite energies 4t and hoppings -t: at energy + i eta there is exactly one matrix F that propagates the solutions decaying into the lead from cell to cell, and the function returns the limit of -t F for eta -> 0+.  It satisfies Sigma (energy - H - Sigma) = t^2 with the cell Hamiltonian H.", "quantifier": "all widths, hoppings and energies, inside and outside of the band and at its edges", "why_tests_cant": "A continuum of energies and all widths; the choice of the root must be right on all sides of the band edges.", "anchors": ["kwant/physics/leads.py:square_selfenergy"]}
{"id": "C167", "title": "Drawing a system with leads shows exactly its sites and the leading cells of its leads", "statement": "sys_leads_sites and sys_leads_pos, the functions from which kwant.plot takes the positions of the symbols, return for a non-empty system and num_lead_cells = n the position of every site of the system, each once, followed, for every builder lead with a non-empty interface, by the positions of exactly those sites of the lead that lie in the n unit cells next to its interface, each once; the slices returned cut the list of positions into the parts of the leads, in order and without gaps. Other leads contribute nothing. This holds for finalized systems with any leads and for builders all of whose leads are builder leads; in both forms the same sites are shown, although one works with sites and the other with numbers.", "quantifier": "every builder reached by any history of operations, every list of leads (with any translational symmetry and contents), every number of cells, before and after finalization", "why_tests_cant": "Tests check the number of sites of a few plots; that numbering, interface cells, translation and slices fit together is a statement about all systems.", "anchors": ["kwant/plotter.py:sys_leads_sites", "kwant/plotter.py:sys_leads_pos", "kwant/builder.py:FiniteSystem.pos", "kwant/builder.py:InfiniteSystem.pos"]}
{"id": "C168", "title": "Drawing a system with leads shows exactly its hoppings and those of the leading cells of its leads", "statement": "sys_leads_hoppings and sys_leads_hopping_pos return for every system and num_lead_cells = n the pair of positions of the ends of every hopping of the system, each hopping once in one of its two directions, followed, for every builder lead with a non-empty interface, by those of exactly the hoppings of the lead that lie within the n unit cells next to its interface or connect them to cells before, again each once in one direction; the slices belong to the leads. This holds for finalized systems with any leads and for builders all of whose leads are builder leads, also if there is no hopping at all.", "quantifier": "every builder reached by any history of operations, every list of leads, every number of cells, before and after finalization", "why_tests_cant": "Tests check the number of hoppings of a few plots.", "anchors": ["kwant/plotter.py:sys_leads_hoppings", "kwant/plotter.py:sys_leads_hopping_pos"]}
{"id": "C169", "title": "A solver context solves the linear system of the matrix it was last factored for", "statement": "For a kwant.linalg.mumps.MUMPSContext and every history of analyze, factor (with and without reuse_analysis) and solve calls, including calls that failed: solve(b) returns x with a x = b, column by column, where a is the matrix of the last factorization, for dense and sparse b alike, if that succeeded and no analysis was begun since; it raises RuntimeError if there is no such matrix and ValueError if b has the wrong number of rows.  Whatever was solved, analysed or refused before has no influence.", "quantifier": "all histories of calls, all matrices and right hand sides, all answers of the MUMPS library to analyses and factorizations", "why_tests_cant": "The state of the context after a history (which matrix, which parameters of the library are still set from an earlier call) is what matters; tests use a new context and one kind of right hand side.", "anchors": ["kwant/linalg/mumps.py:MUMPSContext.analyze", "kwant/linalg/mumps.py:MUMPSContext.factor", "kwant/linalg/mumps.py:MUMPSContext.solve", "kwant/linalg/_mumps.pyx:zmumps", "kwant/linalg/fortran_helpers.py:assert_fortran_matvec"]}
{"id": "C170", "title": "A factorization always ends", "statement": "MUMPSContext.factor, which tries again with twice the memory whenever MUMPS reports that the memory was not sufficient, ends after at most 31 attempts, whatever MUMPS answers and whatever was done with the context before; it either has factored the given matrix or raises an exception, and a MUMPSError never reports lack of memory.", "quantifier": "all histories of calls, all sequences of answers of the library", "why_tests_cant": "The loop has no bound in the code; that it ends follows from the limit of C integers.", "anchors": ["kwant/linalg/mumps.py:MUMPSContext.factor"]}
{"id": "C171", "title": "Solver options can be saved and restored", "statement": "For every sequence of calls of options and reset_options, also failing ones, options(...) of the MUMPS solver returns the options as they were before the call, passing them to options restores all of them exactly and returns those in between, and reset_options restores the options of a new solver.", "quantifier": "all installations of MUMPS, all sequences of calls", "why_tests_cant": "Histories of calls with any arguments; the ordering 'kwant_decides' is resolved when it is set.", "anchors": ["kwant/solvers/mumps.py:Solver.options", "kwant/solvers/mumps.py:Solver.reset_options"]}
{"id": "C172", "title": "Invalid solver options are refused and change nothing", "statement": "options of the MUMPS solver raises ValueError exactly if nrhs is not a positive integer or the ordering is neither 'kwant_decides' nor known; then no option is changed.", "quantifier": "all values of all options, all states of the solver", "why_tests_cant": "All numbers; combinations of valid and invalid options.", "anchors": ["kwant/solvers/mumps.py:Solver.options"]}
{"id": "C173", "title": "Performance options of the solver do not influence results", "statement": "For every factorization of a square matrix a, every number of right hand sides and all values of the options nrhs and sparse_rhs, the solver's solution of linear systems returns the selected rows of the solutions of all right hand sides, in order, and this any number of times with the same factorization, with options changed in between.", "quantifier": "all matrices, right hand sides, selections of rows, values of nrhs and sparse_rhs, numbers of uses", "why_tests_cant": "The right hand sides are cut in groups of nrhs; all numbers and remainders; a factorization kept by wave_function is used again after options were changed.", "anchors": ["kwant/solvers/mumps.py:Solver._solve_linear_sys", "kwant/linalg/mumps.py:MUMPSContext.solve"]}
{"id": "C174", "title": "spectrum draws the energies of the Hamiltonian over the grid", "statement": "kwant.plotter.spectrum(syst, x, y, params, mask), with both plotting engines, draws for each energy index m one curve (or, with y, one surface) over all grid points: at a point that is not masked its height is the m-th eigenvalue of the Hamiltonian whose parameters are the grid values and otherwise those of params; masked points are gaps.  It succeeds exactly if some point is not masked and the Hamiltonian has the same size at all those points.", "quantifier": "all Hamiltonians, grids of any size, params, masks, both engines", "why_tests_cant": "The energies pass through a flat list, a reshape, transpositions and meshgrid, in different ways for the two engines; index mix-ups only show for non-square grids.", "anchors": ["kwant/plotter.py:spectrum,_generate_spectrum,_spectrum_matplotlib,_spectrum_plotly"]}
{"id": "C175", "title": "bands draws the Bloch energies", "statement": "kwant.plotter.bands draws, for each orbital of the unit cell, one curve over the given momenta (an equidistant grid from -pi to pi if a number is given); at each momentum the heights of the curves are the energies of the Bloch waves of the infinite system, ascending and with multiplicities, and the same that kwant.physics.Bands returns.  It raises an exception exactly if the cell Hamiltonian is not Hermitian or there is no momentum.", "quantifier": "all infinite systems and momenta", "why_tests_cant": "The function has its own copy of the Bloch Hamiltonian.", "anchors": ["kwant/plotter.py:bands", "kwant/physics/dispersion.py:Bands"]}
{"id": "C176", "title": "Pixels of a map correspond to sites", "statement": "mask_interpolate, with which kwant.plotter.map makes its picture: for systems on a square (cubic, ...) lattice with the lattice spacing as reference length and odd oversampling, each site lies exactly at the position of one pixel, which is not masked and has the value of the site; with oversampling 1 the pixels that are not masked correspond one to one to the sites.  For all systems, pixels that are shown are within 0.99 reference lengths of a site, and the returned min and max are the positions of the first and last pixel.", "quantifier": "all finite sets of sites in any dimension, all values, reference lengths and odd oversamplings, all interpolation methods", "why_tests_cant": "Boundaries: rounding of the number of pixels, half pixel shifts, all extents.", "anchors": ["kwant/plotter.py:mask_interpolate,map"]}
{"id": "C177", "title": "Maps draw each pixel at its position", "statement": "kwant.plotter.map draws the pixels of the interpolated picture with their centers at the positions at which the value was interpolated, with both plotting engines.", "quantifier": "all numbers of pixels in both directions, both engines", "why_tests_cant": "Pictures that are not square, one pixel wide, or drawn with the other engine.", "anchors": ["kwant/plotter.py:_map_matplotlib,_map_plotly"]}
{"id": "C178", "title": "The default color range of maps covers the documented part of the data", "statement": "percentile_bound(data, vmin, vmax, percentile), which fixes the color range of map, returns a range within that of the data that contains at least the given percentage of the data; a bound given by the user is returned as it is.", "quantifier": "all data, percentages and stretch factors", "why_tests_cant": "All numbers of data; percentiles are interpolated between data.", "anchors": ["kwant/plotter.py:percentile_bound"]}
{"id": "C179", "title": "Site families and sites are identified and ordered by their data", "statement": "Two Monatomic lattices compare equal if and only if they have the same class, primitive vectors, offset, name and number of orbitals; equal families have equal hashes and positions; the order of families and of sites is a strict total order consistent with equality.", "quantifier": "all classes, vectors, offsets, names (with any characters) and numbers of orbitals, all sites", "why_tests_cant": "Identity is decided by comparing texts that are assembled from user-given names and numbers of any length; one must exclude that two different lattices are written in the same way.", "anchors": ["kwant/builder.py:SiteFamily,Site", "kwant/lattice.py:Monatomic.__init__,short_array_repr"]}
{"id": "C180", "title": "A polyatomic lattice has one sublattice for each site of its basis", "statement": "Polyatomic(prim_vecs, basis, name, norbs) has as many sublattices as the basis has sites; sublattice k has the primitive vectors of the lattice, basis vector k as offset, the documented name and the given number of orbitals; the sublattices are different families, so that no site belongs to two of them.", "quantifier": "all vectors, bases, names and numbers of orbitals", "why_tests_cant": "All numbers of sublattices, names and numbers of digits.", "anchors": ["kwant/lattice.py:Polyatomic.__init__"]}
{"id": "C181", "title": "lambdify evaluates a continuum Hamiltonian", "statement": "continuum.lambdify(expr) returns a function whose parameters are the names that occur in the expression, in alphabetical order, and which returns the value of the expression for these arguments.", "quantifier": "all expressions and arguments", "why_tests_cant": "All expressions, of any depth.", "anchors": ["kwant/continuum/_common.py:lambdify"]}
{"id": "C182", "title": "Linear algebra wrappers leave the caller's arrays alone unless asked", "statement": "The arrays that the Schur, generalized Schur and MUMPS wrappers pass to Fortran have the shape and the elements of the arguments, are Fortran contiguous and of the common data type; with overwrite=False nothing that Fortran does with them changes an array of the caller; with overwrite=True only arrays that share memory with an argument can change.", "quantifier": "all arguments (arrays with any strides and sharing of memory, lists, None), all data types, everything Fortran may write", "why_tests_cant": "All layouts, data types and patterns of shared memory.", "anchors": ["kwant/linalg/lapack.pyx:prepare_for_lapack", "kwant/linalg/fortran_helpers.py:prepare_for_fortran"]}
{"id": "C183", "title": "add_peierls_phase multiplies every hopping with its phase and changes nothing else", "statement": "add_peierls_phase succeeds exactly if all leads are BuilderLeads, the Peierls parameter (and its lead variants) is a proper name that no value function of a hopping uses already, and the parameters of these functions can be determined. The returned system has the same sites in the same order; values of sites are unchanged; the hopping (a, b) as it was given to the builder is multiplied with phi(a, b), and the opposite one with its conjugate, so that for a hermitian phase every matrix element between different sites is multiplied with phi(a, b); the same holds for every lead with the parameter phi_lead{i}, and for infinite systems. The parameters of the system are the old ones and phi, and the gauge returns a dictionary that maps these names to the phases of the system and the leads. Time reversal symmetry is removed.", "quantifier": "all builders (any history), constants and value functions, parameters, phases, lists of leads", "why_tests_cant": "All builders, directions in which hoppings were given, and phases.", "anchors": ["kwant/builder.py:add_peierls_phase", "kwant/builder.py:_add_peierls_phase"]}
{"id": "C184", "title": "The discrete symmetries of a system with Peierls phases hold for its Hamiltonian", "statement": "If the Hamiltonian of a system has the conservation law, particle-hole and chiral symmetry declared for it, then so has, for all (hermitian) phases, the Hamiltonian of the system returned by add_peierls_phase, to which these declarations are copied.", "quantifier": "all builders, symmetries, phases", "why_tests_cant": "All Hamiltonians and phases.", "anchors": ["kwant/builder.py:_add_peierls_phase"]}
{"id": "C185", "title": "A conservation law block-diagonalizes the Hamiltonian, in ascending order of its eigenvalues", "statement": "For a builder with a Hermitian onsite conservation law (a constant, a dictionary or a function), discrete_symmetry() of the finalized system raises 'Conservation law must have integer eigenvalues' exactly if an eigenvalue of the operator differs from the nearest integer by more than the tolerance of numpy.allclose, and otherwise returns projectors, one for each (rounded) eigenvalue in ascending order, whose columns are eigenvectors and together form an orthonormal basis; DiscreteSymmetry accepts them; a Hamiltonian that commutes with the law has no matrix elements between different blocks.  If all eigenvalues are integers, the blocks are exactly the eigenspaces.", "quantifier": "all systems with any numbers of orbitals, all Hermitian conservation laws of all three formats, all commuting Hamiltonians", "why_tests_cant": "All operators on all systems; the grouping of degenerate eigenvalues across sites and the shift by 0.5 that keeps zero eigenvalues are only exercised by a few examples.", "anchors": ["kwant/builder.py:_translate_cons_law,_FinalizedBuilderMixin.discrete_symmetry", "kwant/physics/symmetry.py:DiscreteSymmetry.__init__"]}
{"id": "C186", "title": "Builder.closest returns the site closest to a position, taking the symmetry into account", "statement": "Builder.closest(pos) of a builder with a translational symmetry returns an image under the symmetry of a site of the builder such that no image of any site of the builder is closer to pos; without a symmetry it returns a site of the builder that no other site of it is closer than, and None if the builder has no sites.  A site without a position raises AttributeError, and an empty builder with a symmetry StopIteration.", "quantifier": "all builders (any symmetry with linearly independent periods, any families of sites), all positions", "why_tests_cant": "All lattices, periods and positions; skewed periods need the lattice reduction, and the lattice reduction and the search must terminate.", "anchors": ["kwant/builder.py:Builder.closest", "kwant/linalg/lll.py:lll,cvp"]}
{"id": "C187", "title": "plot_2d_bands plots the energies of the system at each momentum, over the first Brillouin zone", "statement": "plot_2d_bands refuses everything but a finalized, completely wrapped-around system with a two-dimensional symmetry of the plane.  At the point k of the plot it shows the eigenvalues of the Hamiltonian whose hoppings have the phase exp(i k.R) of the translation R they cross, with all other parameters as given.  By default the points form an equally spaced grid on a box that contains the first Brillouin zone (the smallest such box), extended by the requested proportion; with mask_brillouin_zone=True exactly the points inside of the first Brillouin zone are plotted.", "quantifier": "all periods, systems, parameters, grids", "why_tests_cant": "All lattices; the neighbors of the origin in the reciprocal lattice are found by lattice reduction, and which basis this ends with depends on the periods.", "anchors": ["kwant/wraparound.py:plot_2d_bands", "kwant/linalg/lll.py:lll,voronoi"]}
{"id": "C188", "title": "Symmetries relate the transmissions of a system, and of a system with reversed magnetic field", "statement": "If a time-reversal symmetry (antiunitary) or a chiral symmetry (at the opposite energy) maps the Hamiltonian of a system with leads to that of another one on the same orbitals, then transmission(l, k) of the one equals transmission(k, l) of the other; if the symmetry is unitary, or a particle-hole symmetry (at the opposite energy), then transmission(l, k) is the same for both.  The numbers of modes of all leads agree, and the blocks of the scattering matrices are related by unitary matrices, one for the incoming and one for the outgoing modes of each lead.  In particular (Onsager) transmission(l, k) in a magnetic field B equals transmission(k, l) in the field -B, whatever the gauge and the symmetries declared for the leads, and transmission(l, k) = transmission(k, l) if the Hamiltonian is real.", "quantifier": "all systems, leads, energies, symmetries, bases of modes that modes() may return", "why_tests_cant": "All Hamiltonians and symmetries.", "anchors": ["kwant/solvers/common.py:SMatrix.transmission,SparseSolver.smatrix", "kwant/physics/leads.py:modes"]}
{"id": "C189", "title": "Symmetries of the scattering matrix in the basis of modes that respects them", "statement": "The outgoing amplitudes of every wave are the scattering matrix times the incoming ones.  If the outgoing modes of all leads are the time-reversed incoming ones, the scattering matrix is symmetric for T^2 = 1 and antisymmetric for T^2 = -1.  If they are the chiral partners, it is Hermitian at zero energy.  If particle-hole symmetry maps each mode to a mode, the elements of the scattering matrix at zero energy between partners are complex conjugates, up to the signs of the partners; it is real if all modes are their own partners.", "quantifier": "all systems, leads, symmetries, energies", "why_tests_cant": "All Hamiltonians and symmetries.", "anchors": ["kwant/solvers/common.py:SparseSolver.smatrix", "kwant/physics/leads.py:make_proper_modes,modes"]}
{"id": "C190", "title": "Conservation laws block-diagonalize the scattering matrix", "statement": "If a Hermitian operator commutes with the Hamiltonian of the scattering region and of the leads, all elements of the scattering matrix between modes with different values of it are zero.  If the leads have been given projectors to its eigenspaces, smatrix.transmission((l, x), (k, y)) is zero whenever block x of lead l and block y of lead k have different values of the conserved quantity.", "quantifier": "all systems, leads, conserved quantities, energies, choices of leads and blocks", "why_tests_cant": "All Hamiltonians and conserved quantities.", "anchors": ["kwant/solvers/common.py:SparseSolver.smatrix,SMatrix.transmission,SMatrix.out_block_coords,SMatrix.in_block_coords", "kwant/physics/leads.py:modes"]}
{"id": "C191", "title": "Adding cells of a lead to the scattering region does not change the transmissions", "statement": "If the first cell of a lead is made a part of the scattering region and the rest of the lead is attached to it (as with add_cells of attach_lead), the elements of the scattering matrix are multiplied with the phases the modes of this lead acquire in one cell, and nothing else changes; the transmissions are the same.  This holds for any number of cells of any leads.  There is a bound state at some energy in one system if and only if there is one in the other.", "quantifier": "all systems, leads, numbers of cells, energies", "why_tests_cant": "All Hamiltonians, any number of cells.", "anchors": ["kwant/solvers/common.py:SparseSolver.smatrix", "kwant/builder.py:Builder.attach_lead"]}
{"id": "C192", "title": "The scattering matrix does not depend on the order of the sites", "statement": "If the sites of the scattering region are numbered differently (and the Hamiltonian and the interfaces of the leads accordingly), the scattering matrix is the same, and so are the energies of bound states.", "quantifier": "all systems, permutations of the sites, leads, energies", "why_tests_cant": "All Hamiltonians and permutations.", "anchors": ["kwant/solvers/common.py:SparseSolver.smatrix", "kwant/builder.py:FiniteSystem"]}
{"id": "C193", "title": "The value functions of a discretized model evaluate its symbolic Hamiltonian", "statement": "What discretize puts into the builder for an onsite or hopping term is the value of the symbolic expression: for every expression or matrix of expressions with parameters and functions (also nested ones), called for any sites and with any parameters, the generated function returns what the expression evaluates to if coordinates are those of the (first) site, a_x is the lattice spacing and all other names are the parameters.  Its parameters are exactly the names of the symbols and functions, sorted; it is a constant exactly if there are none; invalid names are refused.  A value is made of every scalar expression; of a matrix it is made exactly if powers have symbols, functions or numbers as base.  Names that the generated code uses itself (_const_n, _cache_n, site, functions named like coordinates) are excepted: they give wrong values or errors.", "quantifier": "all expressions, coordinates, spacings, positions, parameter values (also functions), orders in which the applied functions are enumerated", "why_tests_cant": "All expressions and all values; sets are enumerated in an order that changes from run to run.", "anchors": ["kwant/continuum/discretizer.py:_builder_value,_return_string,_assign_symbols", "kwant/continuum/_common.py:monomials,_expression_monomials"]}
{"id": "C194", "title": "The current is conserved for each value of a conserved quantity", "statement": "If a Hermitian operator commutes with the Hamiltonian of the scattering region and of the leads, and the leads have been given projectors to its eigenspaces, then for a scattering matrix with all leads the transmissions smatrix.transmission((l, x), (k, y)) from block y of lead k into all those blocks (l, x) that have the same value of the conserved quantity add up to the number of modes of the block y, block_nmodes[y]; and so do, for a given block (l, x), the transmissions from all blocks with its value.", "quantifier": "all systems, leads, conserved quantities, energies, blocks", "why_tests_cant": "All Hamiltonians and conserved quantities.", "anchors": ["kwant/solvers/common.py:SparseSolver.smatrix,SMatrix.transmission,SMatrix.out_block_coords,SMatrix.in_block_coords", "kwant/physics/leads.py:modes"]}
{"id": "C195", "title": "The functions of SelfEnergyLead and ModesLead are called with the arguments of the caller", "statement": "Whatever the signature of the function, lead.selfenergy(energy, args, params=params) (and modes) makes the call f(energy, args, params=params) if the function accepts it, and returns its result; a function without params and **kwargs (old API) is called as f(energy, args); all other functions raise TypeError.  energy by keyword and omitted args and params are treated as the defaults () and None.  The methods of a lead can again be used for another lead.  The self-energy of a ModesLead is that of its stabilized modes.  deprecate_parameter changes no results and no errors of the decorated function, and warns exactly if the parameter is given and truthy.", "quantifier": "all signatures, functions and arguments (positional, keyword)", "why_tests_cant": "All signatures of user functions.", "anchors": ["kwant/builder.py:_ensure_signature,SelfEnergyLead,ModesLead", "kwant/_common.py:deprecate_parameter,deprecate_args"]}
{"id": "C196", "title": "schur_complement returns the Schur complement", "statement": "For every square complex sparse matrix (any format, duplicate entries add up) and every list of distinct indices for which MUMPS succeeds, kwant.linalg.mumps.schur_complement(a, indices) is A_II - A_IJ A_JJ^-1 A_JI, with rows and columns in the order of indices; its inverse is the block of the inverse matrix.  Exactly for arguments that are no square sparse matrix, indices that are no 1d array, unknown orderings and real matrices an exception is raised.", "quantifier": "all sizes, matrices, index lists, orderings", "why_tests_cant": "All matrices; answers of the library that tests do not provoke.", "anchors": ["kwant/linalg/mumps.py:schur_complement,_make_assembled_from_coo,_make_mumps_index_array", "kwant/linalg/_mumps.pyx:zmumps.set_schur"]}
{"id": "C197", "title": "The scattering matrix does not depend on the gauge and the local basis", "statement": "If each orbital of the scattering region gets a phase (a gauge transformation), or more generally if the orbitals are replaced by other orthonormal ones, in such a way that at the interface of each lead there is only one common phase, then the elements of the scattering matrix get the phases of the two leads, and nothing else changes: all transmissions are the same, and so are the energies of bound states; under a gauge transformation also the densities of all scattering states (wave_function).", "quantifier": "all systems, leads, energies, unitary transformations", "why_tests_cant": "All Hamiltonians and gauges.", "anchors": ["kwant/solvers/common.py:SparseSolver.smatrix,SparseSolver.wave_function"]}
{"id": "C198", "title": "plot draws every site with its own symbol, size and colour", "statement": "For every system and every site_symbol, site_size, site_color, site_edgecolor and site_lw given as None, as a single value that is no tuple (for finalized systems also a polygon as symbol), as a function or (not for builders) as an array of one value per site, the figure made by kwant.plot with matplotlib contains each site of the system exactly once, with the symbol, size, colour, edge colour and line width given for this site, however the sites are spread over the symbols; the sites without symbol and those of size zero are not visible.  Numbers as colours are mapped with the smallest and the largest number of all the sites.  Without site_color, sites have the same colour exactly if they are of the same family (as long as the colour cycle has enough colours).  A documented tuple for all the sites (a polygon as symbol, an RGB colour) is refused for builders; for finalized systems an RGB tuple is taken for a list of numbers.", "quantifier": "all systems, arguments of the five kinds, symbols, 2d and 3d", "why_tests_cant": "All combinations of arguments and partitions of the sites; the tests of the plotter only check that nothing raises.", "anchors": ["kwant/plotter.py:_plot_matplotlib,_check_length,_make_proper_site_spec,set_colors,get_symbol,symbols,_color_cycle"]}
{"id": "C199", "title": "plot draws every hopping once, and the leads fading out", "statement": "In the figure made by kwant.plot with matplotlib every hopping of the system appears exactly once, with the colour and width that hop_color and hop_lw (None, a single value that is no tuple, or a function) give for it; numbers as colours are mapped with the range of the numbers of all the hoppings.  Every site and every hopping of the num_lead_cells plotted cells of each lead appears exactly once, with the symbol, size, edge colour and widths of the leads and with a colour that fades strictly from lead_color to white with the distance from the system.  A property of leads that is not given is that of the sites if this is a single value, the default otherwise (exception: a polygon is not passed on).  Lines of width zero are not seen.  If the leads have no symbol ('no symbol'), plot fails.", "quantifier": "all systems, leads, numbers of cells and arguments of the documented kinds", "why_tests_cant": "All arguments and numbers of sites, hoppings and cells; the tests of the plotter only check that nothing raises.", "anchors": ["kwant/plotter.py:_plot_matplotlib,_make_proper_hop_spec,lines,symbols,set_colors"]}
{"id": "C200", "title": "The unit of symbol sizes in plot is the shortest hopping", "statement": "For a system with hoppings and unit='nn', kwant.plot measures symbol sizes and line widths in units of the length of one of the plotted hoppings (of the system and the leads, after pos_transform): the shortest one among those that are at least 1e-8 times as long as the longest one.  It is zero only if all hoppings have length zero, and does not depend on where the system lies.  unit='pt' gives points, a number gives this number, anything else ValueError.  (Without hoppings, the documented typical nearest neighbor distance is not what is used: the sampled points are transposed before being reshaped, so that the unit depends on the origin of the coordinates, and it is zero for a single site.)", "quantifier": "all positions, hoppings, units, 2d and 3d", "why_tests_cant": "All geometries; the outcome is a scale in a figure, which the tests do not look at.", "anchors": ["kwant/plotter.py:_plot_matplotlib,_sample_array"]}
{"id": "C201", "title": "The SciPy solver solves the scattering problem", "statement": "With the solver of kwant.solvers.sparse (the default one if MUMPS is missing), for every system for which the factorization succeeds: smatrix has one row per outgoing mode of the requested leads and one column per incoming mode, and its elements are the amplitudes of the scattering states (if no lead has zero hopping, or all leads are requested); greens_function returns the elements of the inverse of E - H - Sigma between the orbitals of the interfaces of the requested leads; wave_function returns the scattering states of the incoming modes of the lead; ldos is the sum of their squared moduli divided by 2 pi.  All the right-hand sides are solved in one buffer, whose earlier contents never matter.  The array returned by smatrix for all leads of a Hermitian system is unitary.  If the matrix is singular, an exception is raised.", "quantifier": "all systems, leads, energies, lists of leads, numbers of right-hand sides, and all factorizations that satisfy the contract", "why_tests_cant": "Whether the right columns and variables are selected for all combinations of leads.", "anchors": ["kwant/solvers/sparse.py:Solver._factorized,_solve_linear_sys", "kwant/solvers/common.py:SparseSolver.smatrix,greens_function,ldos,WaveFunction"]}
{"id": "C202", "title": "Stream lines have width and intensity proportional to the flow", "statement": "In kwant.plotter.streamplot (and current) no line is thinner than min_linewidth, width times intensity of the lines is max_linewidth times speed / vmax everywhere, and no line is thicker than max_linewidth if vmax is not given; the colours of thin lines are mixed with the background linearly in light, exactly between the two colours (all 8-bit colours are hit exactly); every vector is drawn at its sample point; the pixels of the image behind (and of scalarplot) are at most half a pixel away from their sample points.  They are not at these points, and the option bgcolor never works with the versions of matplotlib that kwant supports: counterexamples.", "quantifier": "all fields, speeds, widths, colours, sizes, boxes", "why_tests_cant": "All speeds and colours; figures are not compared by tests.", "anchors": ["kwant/plotter.py:streamplot,_streamplot_matplotlib,_linear_cmap,_gamma_compress,_gamma_expand,_scalarplot_matplotlib"]}
{"id": "C203", "title": "Figures are output once and returned", "statement": "With matplotlib and without ax, plot, map, bands, spectrum, scalarplot and density save the figure exactly once if a file is given, otherwise show it exactly once unless show is false, and return it; with ax they output nothing and return None.  With plotly the figure is saved and shown as requested and returned, unsupported arguments are refused before anything is output, and showing outside of IPython is refused.  Without an engine every function raises.  set_engine accepts exactly the available engines.  streamplot and current output the figure twice and never return it: counterexample.", "quantifier": "all functions, engines, states of the module, and combinations of file, show, ax, dpi, fig_size", "why_tests_cant": "All combinations of options; tests do not count outputs.", "anchors": ["kwant/plotter.py:set_engine,get_engine,_make_figure,_maybe_output_fig,_check_incompatible_args_plotly,plot,map,bands,spectrum,streamplot,scalarplot,current,density"]}
{"id": "C204", "title": "Weights of links in the gauge are assembled and copied exactly", "statement": "The sparse-matrix bookkeeping of the magnetic gauge: matrices of links given in pieces are added, a shift by the number of sites moves all elements along the diagonal and leaves the rest zero, the matrix of distances has the length of each link at its element and zero elsewhere; the comparison of structures decides whether the same elements are stored; and copying an element from a matrix of the same structure changes exactly this element to the value of the other matrix, keeps all others and the structure, and refuses elements that are not stored.  It relies on sorted matrices (which the conversion guarantees): for an unsorted matrix with the same elements, another value would be copied.", "quantifier": "all matrices in canonical CSR format, all COO matrices, elements, links, shifts", "why_tests_cant": "All sparsity structures; a wrong position would only change the order in which loops are found.", "anchors": ["kwant/physics/gauge.py:_assign_csr,_same_sparsity_structure,_add_coo_matrices,_shift_diagonally,_distance_matrix"]}
{"id": "C205", "title": "Scalar plots with plotly draw values at their sample points", "statement": "kwant.plotter.scalarplot with the engine plotly draws every value of the field at its sample point (the points of the field are equidistant in the box, the ends included), and the range of colours is vmin and vmax, by default exactly the smallest and the largest value.  The positions are right only for fields with as many points in x as in y: otherwise every point except for those at the lower left edges is drawn at a wrong place or has no coordinate (counterexample), because the numbers of points are taken from the transposed field.", "quantifier": "all fields, boxes, limits", "why_tests_cant": "All shapes; the tests do not look at figures.", "anchors": ["kwant/plotter.py:scalarplot,_scalarplot_plotly"]}

#!/usr/bin/env python3
"""Writes properties.jsonl (source of truth is the list below)."""
import json
P=[]
def p(id,title,statement,quantifier,why,anchors):
    P.append(dict(id=id,title=title,statement=statement,quantifier=quantifier,why_tests_cant=why,anchors=anchors))

# ---------------- graph
p("C01","Compressed graph: out-neighbours are exactly the added edges in order",
  "After any sequence of add_edge calls, compressed() yields a graph whose out_neighbors(t) is the list of heads of the edges added with tail t, in the order of addition (multi-edges kept), for every existing node t; querying a node outside 0..num_nodes-1 raises NodeDoesNotExistError.",
  "all finite sequences of edges, all nodes, both compression modes","counting sort indices can go wrong only for particular degree patterns; tests sample a few graphs",
  ["kwant/graph/core.pyx: Graph.add_edge, Graph.compressed, CGraph.out_neighbors"])
p("C02","Two-way compressed graph: in-neighbours and in-edge-ids agree with out side",
  "In a two-way compressed graph in_neighbors(h) lists the tails of all edges added with head h in order of addition, and the k-th entry of in_edge_ids(h) is the edge ID e with head(e)=h of that same edge.",
  "all edge sequences incl. dangling (negative) tails/heads when allowed","same as C01; two independent index arrays must agree",
  ["kwant/graph/core.pyx: Graph.compressed, CGraph.in_neighbors, CGraph.in_edge_ids"])
p("C03","Edge-number to edge-ID translation is an injection onto the edges and preserves end points",
  "With edge_nr_translation, edge_id(nr) maps every sequential edge number that is representable to a distinct ID in 0..num_edges-1 and head(edge_id(nr)) is the head of the nr-th added edge; non-representable ones (negative tail in one-way graphs) and out-of-range numbers raise EdgeDoesNotExistError.",
  "all edge sequences, all edge numbers","must hold for every history of add_edge",
  ["kwant/graph/core.pyx: Graph.compressed, CGraph.edge_id, CGraph.head"])
p("C04","Iterating a compressed graph enumerates (tail, head) in edge-ID order",
  "list(cgraph) for a graph without negative tails has length num_edges, and its k-th entry is the (tail, head) of the edge with ID k; as a multiset it equals the multiset of added edges.",
  "all edge sequences without negative tails","the iterator carries a moving tail cursor; needs all degree patterns including empty nodes",
  ["kwant/graph/core.pyx: EdgeIterator.__next__, CGraph.__iter__"])
p("C05","has_edge / first_edge_id / all_edge_ids agree with the added edges",
  "has_edge(t,h) is true iff edge (t,h) was added; first_edge_id(t,h) returns the smallest ID whose edge is (t,h) and raises EdgeDoesNotExistError iff there is none; all_edge_ids lists exactly all such IDs in increasing order (t >= 0).",
  "all edge sequences, all node pairs","search ranges come from CSR offsets",
  ["kwant/graph/core.pyx: CGraph.has_edge, CGraph.first_edge_id, CGraph.all_edge_ids"])
p("C06","CGraph.tail inverts the edge ID",
  "tail(e) returns the tail of the edge with ID e, for every valid edge ID of every compressed graph.",
  "all edge sequences and edge IDs","binary search over offsets with repeated entries (nodes without outgoing edges)",
  ["kwant/graph/core.pyx: CGraph.tail"])
p("C07","Graph bookkeeping: num_nodes and rejected edges",
  "num_nodes never decreases and is always strictly larger than every non-negative node of every accepted edge; add_edge returns consecutive numbers; negative nodes are rejected unless allowed, doubly-dangling edges always; a rejected edge leaves the graph unchanged; compression in one-way mode fails iff some accepted edge has a negative tail and lost edges are not allowed.",
  "all sequences of add_edge / num_nodes assignments","history property",
  ["kwant/graph/core.pyx: Graph.num_nodes, Graph.add_edge, Graph.compressed"])
p("C08","Pickling a compressed graph is lossless",
  "__setstate__(__getstate__()) reproduces a compressed graph that answers every query identically.",
  "all compressed graphs (all flags)","counts are recomputed from derived totals; a mistake shows only for certain dangling-edge mixes",
  ["kwant/graph/core.pyx: CGraph_malloc.__getstate__, __setstate__, __init__"])
# ---------------- symmetry
p("C10","Translational symmetry is a group action on sites and hoppings",
  "act(0,s)=s, act(g,act(h,s))=act(g+h,s), and acting on a hopping acts on both of its ends, including on reversed symmetries and across site families.",
  "all integer period matrices, all group elements and sites of any dimension","infinitely many group elements and lattices",
  ["kwant/lattice.py: TranslationalSymmetry.act, .reversed"])
p("C11","which() is equivariant and defines one representative per orbit",
  "which(act(g,s)) = g + which(s); to_fd(s) lies in the fundamental domain, is in the orbit of s, is idempotent, and two sites are in the same orbit iff they have the same to_fd image.",
  "all lattices dimensions, periods (det of either sign), sites, group elements","floor division with negative determinants/tags is only right if it holds for all integers",
  ["kwant/lattice.py: TranslationalSymmetry.which, .act, add_site_family", "kwant/builder.py: Symmetry.to_fd, Symmetry.in_fd"])
p("C12","reversed() keeps the fundamental domain and inverts the group",
  "For sym.reversed(): act_rev(g,s) = act(-g,s), which_rev(s) = -which(s), in_fd unchanged, to_fd unchanged; reversing twice gives back the original behaviour.",
  "all symmetries, sites, elements","for all inputs",
  ["kwant/lattice.py: TranslationalSymmetry.reversed", "kwant/builder.py: Builder.reversed"])
# ---------------- builder
p("C20","Builder well-formedness is an invariant of every operation history",
  "After any sequence of public operations (set/del site or hopping, update, eradicate_dangling, failing operations included) the builder satisfies: every stored site is in the fundamental domain, every hopping (a,b) is present iff (b,a) is present, exactly one direction of each hopping is reported by hoppings(), no hopping connects a site to itself or refers to an absent site.",
  "all finite histories of operations, all symmetries","histories are unbounded",
  ["kwant/builder.py: Builder._set_site, _set_hopping, _del_site, _del_hopping, eradicate_dangling, update"])
p("C21","Read-your-writes for sites, with frame",
  "After builder[site]=v, builder[s'] == v for every s' in the orbit of site, all other sites and all hoppings keep their values and containment.",
  "all builder states reachable, all sites, values","for every state and key",
  ["kwant/builder.py: Builder._set_site, __getitem__, __contains__"])
p("C22","Read-your-writes for hoppings, Hermitian and symmetric, with frame",
  "After builder[a,b]=v (both ends present) builder[g.a,g.b]==v and builder[g.b,g.a]==herm_conj(v) for all group elements g, and no other site or hopping value changes.",
  "all reachable states, hoppings, group elements","for every state and key",
  ["kwant/builder.py: Builder._set_hopping, _get_edge, _set_edge, __getitem__, HermConjOfFunc"])
p("C23","Hermiticity of stored values",
  "In every reachable state builder[b,a] == herm_conj(builder[a,b]) whenever (a,b) in builder.",
  "all histories","history property",
  ["kwant/builder.py: Builder.__getitem__, herm_conj, HermConjOfFunc"])
p("C24","Failing set/del of a hopping leaves the builder unchanged (atomicity)",
  "If builder[a,b]=v raises (loop hopping, absent site) the builder is unchanged; likewise del builder[a,b] of an absent hopping and del builder[s] of an absent site.",
  "all reachable states and keys","needs every crash point between the two half-edge writes",
  ["kwant/builder.py: Builder._set_hopping, _del_hopping, _del_site"])
p("C25","Deleting a site removes it and exactly its hoppings",
  "After del builder[s]: neither s nor any hopping touching the orbit of s is contained; every other site and hopping is unchanged.",
  "all reachable states, sites","the deletion loop iterates over a list it may be mutating (self-image hoppings)",
  ["kwant/builder.py: Builder._del_site"])
p("C26","Deleting a hopping removes exactly that hopping (both directions, all images)",
  "After del builder[a,b], neither (a,b) nor (b,a) nor any image is contained and all other sites/hoppings are unchanged.",
  "all reachable states and hoppings","for every state",
  ["kwant/builder.py: Builder._del_hopping"])
p("C27","sites()/hoppings()/len consistency: hoppings() enumerates each hopping once",
  "For every reachable builder and every hopping (a,b) contained in it, exactly one of the pairs yielded by hoppings() is equivalent to (a,b) or (b,a); every yielded pair is contained; sites() yields every contained site orbit exactly once.",
  "all histories","for all states",
  ["kwant/builder.py: Builder.sites, hoppings, hopping_value_pairs, site_value_pairs"])
p("C28","degree() and neighbors()",
  "neighbors(s) yields exactly the sites n with (s,n) in the builder, without repetition, for any image s; degree(s) is their number.",
  "all reachable states, all sites of the orbit","needs symmetry shift",
  ["kwant/builder.py: Builder.neighbors, degree, _out_degree"])
p("C29","eradicate_dangling removes exactly the sites outside the 2-core",
  "After eradicate_dangling() no site has fewer than two hoppings; the surviving sites are the largest subset with that property, values of surviving sites/hoppings are unchanged, the call terminates.",
  "all reachable builders (without and with symmetry)","cascading deletion along arbitrarily long chains",
  ["kwant/builder.py: Builder.eradicate_dangling"])
p("C30","update() overwrites with the other builder and appends its leads",
  "After a.update(b) (equal symmetries): for each site/hopping of b the value is that of b, every other one is that of a; leads are a.leads+b.leads.",
  "all pairs of reachable builders","for all pairs",
  ["kwant/builder.py: Builder.update"])
p("C31","General keys expand recursively in order",
  "builder.expand(key) yields exactly the simple keys at the leaves of the nested key in left-to-right order, for any nesting; builder[key]=v equals assigning each in turn.",
  "all nested keys","explicit iterator stack",
  ["kwant/builder.py: Builder.expand, __setitem__, __delitem__"])
p("C32","substituted()/_substitute_params rename parameters simultaneously and reject collisions",
  "The substituted function has parameter list subs applied simultaneously, rejects exactly when two parameters would get the same name, is called with the same positional arguments; composing substitutions composes the renamings.",
  "all parameter lists and substitution maps","for all maps",
  ["kwant/builder.py: _substitute_params, _Substituted, Builder.substituted"])
p("C33","HoppingKind enumerates exactly the matching hoppings",
  "kind(builder) yields exactly the pairs (a,b) with a stored site of family_a, b=family_b(a.tag-delta) and b's image contained in the builder, each once.",
  "all reachable builders, deltas","for all builders",
  ["kwant/builder.py: HoppingKind.__call__"])
p("C34","fill() is a correct flood fill",
  "fill(template, shape, start) without leads/exception adds exactly the sites reachable from the start sites through template hoppings inside shape and not already present; afterwards the builder is well-formed, new sites carry the template's values, hoppings between new and present sites are those of the template, older ones untouched.",
  "all templates, shapes, starts, targets","graph reachability over arbitrary templates",
  ["kwant/builder.py: Builder.fill"])
p("C35","attach_lead adds a complete interface",
  "After attach_lead succeeded, every interface site and every added site is contained in the system, the interface is the set of lead sites in domain max_dom that have a hopping to domain max_dom+1, and no site of domain max_dom+1 was left in the system by the call.",
  "all leads/systems","depends on fill",
  ["kwant/builder.py: Builder.attach_lead"])
p("C36","Automatic increase of a lead's period preserves the lead",
  "When attach_lead increases the lead period because hoppings reach beyond the nearest unit cell, the extended lead describes the same infinite system as the original: it contains exactly the original sites and hoppings with their original values.",
  "all leads, hopping ranges and values","for all leads; connectivity of the lead matters",
  ["kwant/builder.py: Builder.attach_lead (hop_range > 1 branch), Builder.fill"])
# ---------------- finalized
p("C40","Finalized finite system: site numbering is a bijection sorted by (family, tag)",
  "sites is sorted without repetition, contains exactly builder.sites(), id_by_site[sites[i]]==i.",
  "all reachable builders without symmetry","for all builders",
  ["kwant/builder.py: FiniteSystem.__init__"])
p("C41","Finalized Hamiltonian equals the builder's values",
  "syst.hamiltonian(i,i)==builder[sites[i]] and syst.hamiltonian(i,j)==builder[sites[i],sites[j]] for every hopping, and the pair (i,j) is an edge of syst.graph iff the hopping is in the builder; evaluation of value functions is with the sites in the right order.",
  "all reachable builders, all i, j","order of hoppings list must match edge IDs for every graph",
  ["kwant/builder.py: FiniteSystem.__init__, _FinalizedBuilderMixin.hamiltonian"])
p("C42","Finalized Hamiltonian is Hermitian off the diagonal by construction",
  "hamiltonian(j,i) == herm_conj(hamiltonian(i,j)) for every edge of the graph and every parameter assignment.",
  "all reachable builders and parameters","for all",
  ["kwant/builder.py: _FinalizedBuilderMixin.hamiltonian"])
p("C43","site_ranges / orbital offsets are correct",
  "_site_ranges produces run-length ranges such that for every site i the offset found by bisection equals the total number of orbitals of sites 0..i-1 and the norbs equals that of the site; the final sentinel gives the total.",
  "all site sequences and orbital numbers","bisection over arbitrary runs",
  ["kwant/builder.py: _site_ranges", "kwant/operator.pyx: _bisect, _get_orbs, _get_tot_norbs"])
p("C44","hamiltonian_submatrix: entries",
  "The dense submatrix has at block (to,from) the onsite if to==from and the hopping if an edge exists and 0 otherwise; the sparse result represents the same matrix (duplicates summed); the full-matrix fast path (only half of the edges evaluated) equals the general path for Hermitian systems.",
  "all systems, site selections without repetition","four code paths over arbitrary block sizes",
  ["kwant/_system.pyx: make_sparse, make_sparse_full, make_dense, make_dense_full, hamiltonian_submatrix"])
p("C45","Full Hamiltonian matrix is Hermitian iff its onsite blocks are",
  "The full matrix returned by hamiltonian_submatrix() is Hermitian whenever all onsite blocks are Hermitian, whatever the hopping functions return.",
  "all systems","for all systems",
  ["kwant/_system.pyx: make_dense_full, make_sparse_full"])
p("C46","Finalized infinite system layout",
  "The first cell_size sites are exactly the builder's sites, the first N of which are exactly those with a hopping to the next domain, and the remaining N sites are their images in the previous domain in the same order; ids are inverse to sites; further-than-nearest-cell hoppings are rejected.",
  "all reachable 1D-symmetric builders","for all builders",
  ["kwant/builder.py: InfiniteSystem.__init__"])
p("C47","Infinite system Hamiltonian equals builder values",
  "hamiltonian(i,j)==builder[sites[i],sites[j]] for i,j intra-cell hopping or inter-cell hopping, onsite of an interface copy equals that of the cell site.",
  "all reachable 1D-symmetric builders","for all builders",
  ["kwant/builder.py: InfiniteSystem.__init__, InfiniteSystem.hamiltonian"])
p("C48","precalculate() only changes the requested leads and freezes what was asked",
  "precalculate(what, leads) leaves non-listed leads identical, and a listed lead's modes()/selfenergy() return the precomputed value or raise ValueError exactly if it was not requested.",
  "all lead lists and selections","for all selections",
  ["kwant/system.py: FiniteSystem.precalculate, PrecalculatedLead"])
p("C49","Broken symmetries are ignored when computing modes",
  "InfiniteSystem.modes ignores every declared discrete symmetry that validate() reports as broken.",
  "all combinations of broken symmetries","attribute name table must match for every symmetry",
  ["kwant/system.py: InfiniteSystem.modes"])
# ---------------- operators etc
p("C50","where-validation of Current operators rejects exactly inter-cell hoppings",
  "For infinite systems a hopping given via where is accepted iff both sites are in the fundamental cell.",
  "all systems and where lists","boundary index",
  ["kwant/operator.pyx: _normalize_hopping_where, _normalize_site_where"])
p("C51","Hamiltonian block shape check in operators",
  "A Hamiltonian block used in an operator is accepted iff both of its dimensions match the declared orbital numbers.",
  "all block shapes","for all shapes",
  ["kwant/operator.pyx: _check_ham"])
p("C52","BlockSparseMatrix storage is lossless",
  "Element (i,j) of block w is retrievable at data[data_offsets[w]+i*ncols+j] for all blocks: blocks do not overlap.",
  "all block lists","for all shapes",
  ["kwant/operator.pyx: BlockSparseMatrix"])
p("C53","transmission() deduced by current conservation is right",
  "When the scattering matrix conserves current, transmission(o,i) equals the true transmission whenever it returns a value, for any set of computed out/in leads.",
  "all lead numbers, transmission matrices with row/column sums equal to the number of modes","combinatorial over missing leads",
  ["kwant/solvers/common.py: BlockResult.transmission"])
p("C54","conductance matrix columns (and rows) sum to zero",
  "conductance_matrix() has zero column sums always; zero row sums if current is conserved; off-diagonals are minus the transmissions.",
  "all numbers of leads and transmissions","for all n",
  ["kwant/solvers/common.py: BlockResult.conductance_matrix"])
p("C55","S-matrix block slices partition the matrix",
  "The slices for the out (in) leads, and for the symmetry blocks inside a lead, are disjoint, ordered and cover all rows (columns), and each has the size of that lead/block.",
  "all lead subsets and block sizes","for all sizes",
  ["kwant/solvers/common.py: BlockResult.out_block_coords, in_block_coords, SMatrix.out_block_coords"])
p("C56","Density operators compute the documented bilinear form",
  "Density(...)(bra, ket) returns for each element of where the sum over orbitals of conj(bra) Q ket, where Q is the onsite matrix on the orbitals of that site and zero elsewhere; act() applies the sum of these tensors to the ket, tocoo() is their sum as a matrix, sum=True sums the elements, and with check_hermiticity nothing is lost by returning real numbers when bra is ket.",
  "all systems, onsites, where lists, wave functions","for all orbital numbers and wave functions",
  ["kwant/operator.pyx: Density, _LocalOperator.__call__, _LocalOperator.act, Density.tocoo"])
p("C57","Current and Source compute the documented bilinear forms and satisfy continuity",
  "Current on (a,b) is conj(bra) [i H_ab^dagger M_a - i M_a H_ab] ket, Source on a is conj(bra) i [H_a^dagger M_a - M_a H_a] ket. For an eigenstate with real energy, the currents from a site plus the source on it sum to zero; for a scalar onsite and a Hermitian hopping, the current on (b,a) is minus that on (a,b).",
  "all systems, onsites, where lists, wave functions","for all orbital numbers and wave functions",
  ["kwant/operator.pyx: Current, Source"])
p("C58","bind() is equivalent to giving the parameters on every call",
  "op.bind(params) called without parameters gives what op gives with these parameters (value and act); a bound operator refuses further parameters; bind fails exactly if evaluation of the needed matrices fails.",
  "all operators and parameters","for all operators",
  ["kwant/operator.pyx: _LocalOperator.bind, Current.bind, Source.bind"])
# ---------------- physics
p("C60","DiscreteSymmetry auto-computes the missing symmetry consistently",
  "If two of (T, P, C) are given and the constructor accepts, the three stored operators satisfy C P T* = 1, each is unitary and squares to +-1 (C to +1).",
  "all matrix sizes and operators (exact arithmetic)","algebraic identity for all matrices",
  ["kwant/physics/symmetry.py: DiscreteSymmetry.__init__"])
p("C61","Gaussian random matrices have the symmetries of their class",
  "gaussian(n, sym) is Hermitian and satisfies exactly the documented chiral/time-reversal/particle-hole relations for every random draw.",
  "all n, all 10 classes, all random draws (exact arithmetic)","random draws cannot be exhausted",
  ["kwant/rmt.py: gaussian, t, p, c, h_t_matrix, h_p_matrix"])
p("C62","Peierls phases: the product around every closed walk is the flux",
 "For a finite system, magnetic_gauge(syst) terminates without an exception; the loops it finds are ordered such that each one only uses links whose phase is already known. The returned phases are unit numbers, phase(b,a) is the conjugate of phase(a,b), phases are 1 on a spanning forest, and the product around every loop found is exp(i*pi*flux). If the field has a vector potential (e.g. a constant field), the same holds for every closed walk along hoppings, and the phases are gauge equivalent to those of the vector potential.",
 "all finite systems, positions, fields and closed walks; any choice among ties by set.pop, argsort and the heap","for all graphs and walks",
 ["kwant/physics/gauge.py: _calculate_phases, _previous_phase_finite, _finite_wrapper, _find_loops, _shortest_distance_forest, _surface_integral"])
p("C63","Dijkstra returns shortest paths",
  "dijkstra_directed returns for each reachable (source,target) a path of existing finite-weight edges whose length is the reported length and is minimal.",
  "all non-negatively weighted graphs","for all graphs",
  ["kwant/graph/dijkstra.pyx: dijkstra_directed, _calculate_path"])
p("C64","magnetic_gauge honours its 'average' argument",
  "gauge(B, average=True) evaluates each triangle with a single field evaluation.",
  "all calls","argument passing for every call",
  ["kwant/physics/gauge.py: magnetic_gauge.__call__"])
p("C65","Bands returns the Bloch energies and their velocities",
  "For every momentum k, Bands(k) returns in ascending order and with their multiplicities exactly the energies for which the infinite wire has a Bloch wave with that momentum; returned eigenvectors are orthonormal and solve the Schroedinger equation. For every non-degenerate band there is a differentiable energy near k, and every continuous energy through it has the returned velocity as its derivative. (At a degeneracy the velocities depend on the eigenvectors that LAPACK chooses and need not be derivatives.)",
  "all k, all Hermitian cell Hamiltonians, hoppings and sizes","continuum of k; the derivative is a limit",
  ["kwant/physics/dispersion.py: Bands.__init__, Bands.__call__"])
p("C66","wraparound gives the Bloch Hamiltonian",
  "wraparound(builder, keep) never fails for a builder whose value functions respect its symmetry; it contains exactly the sites of builder in the fundamental domain of the wrapped directions; evaluated at any parameters and momenta k it has for each pair (a,b) of such sites the matrix element sum over wrapped translations n of exp(i k.n) * builder[a, n.b], and is Hermitian for every k.",
  "all builders with translational symmetry, every keep, all parameters and momenta","many-to-one folding of hoppings",
  ["kwant/wraparound.py: wraparound"])
p("C67","digest.uniform is in [0,1)",
  "uniform(input,salt) returns a number u with 0 <= u < 1 exactly representable, for every input; gauss never takes log of zero.",
  "all md5 digests (2^128)","cannot enumerate",
  ["kwant/digest.py: uniform2, uniform, gauss"])
# ---------------- linalg
p("C70","LLL ends and returns a reduced basis of the same lattice",
  "For every linearly independent basis and every c > 4/3 (the default is 1.34) lll() ends without an error. The vectors it returns span the same lattice as the input, the returned coefficient matrix is integer with determinant +-1 and expresses the new vectors in the input basis, and the new basis is c-reduced: the squared length of every Gram-Schmidt vector is less than c times that of the next one.",
  "all bases (exact arithmetic), all dimensions, all iteration counts","termination and invariant of an unbounded loop",
  ["kwant/linalg/lll.py: lll, is_c_reduced, gs, gs_coefficient"])
p("C71","cvp returns the closest lattice vectors",
  "cvp(vec, basis, n) ends and returns n different lattice points in the order of their distance to vec such that no other lattice point is closer than any returned one. With group_by_length=True, whenever it returns, the result consists of exactly n groups of equal length (within rtol) and all the other lattice points are farther away than all the returned ones by more than the tolerance.",
  "all vectors and bases (exact arithmetic), all n","search region is finite; the claim is about all lattice points",
  ["kwant/linalg/lll.py: cvp"])
p("C72","voronoi returns the vectors that define the Voronoi cell",
  "voronoi(basis) ends and returns 2(2^D-1) nonzero lattice vectors, the second half minus the first, one pair for every nonzero class modulo 2L, each a shortest vector of its class; a point is at least as close to the origin as to all the lattice points iff it is so with respect to the returned ones. With reduced=True (and rtol=0) the returned vectors are exactly the normals of the faces of codimension one of the Voronoi cell; for any rtol >= 0 none of the returned vectors is redundant.",
  "all bases, all D","all dimensions; the Voronoi cell is defined by infinitely many lattice points",
  ["kwant/linalg/lll.py: voronoi"])
# ---------------- common
p("C80","memoize returns what the function returns",
  "A memoized pure function returns the same results as the original for every call history; every non-None result is computed at most once per key.",
  "all call histories","histories are unbounded",
  ["kwant/_common.py: memoize"])
p("C81","get_parameters accepts exactly plain positional signatures",
  "get_parameters(f) returns all parameter names in order if every parameter is positional without default and raises ValueError otherwise.",
  "all signatures","for all signatures",
  ["kwant/_common.py: get_parameters"])
p("C82","interleave pairs elements",
  "interleave(seq) yields (seq[0],seq[1]),(seq[2],seq[3]),..., dropping an odd last element.",
  "all sequences","for all lengths",
  ["kwant/_common.py: interleave"])
# ---------------- more on finalized systems
p("C90","Leads of a finalized system point at the right sites",
  "Finalizing a builder with leads succeeds iff every lead can be finalized and all its interface sites are in the system (ValueError otherwise); lead_interfaces[k] lists the numbers of the interface sites of lead k in the given order and lead_paddings[k] those of the padding sites that are still in the system.",
  "all reachable builders, all lists of leads","for all lead lists and interfaces",
  ["kwant/builder.py: FiniteSystem.__init__"])
p("C91","parameters of a finalized system are exactly those of its value functions and suffice",
  "The parameters attribute is the set of parameter names of the value functions of the builder (without the site arguments), None if a function has an unsuitable signature; giving all of them in params makes no element of the Hamiltonian fail for missing parameters.",
  "all reachable builders, all parameter dictionaries","for all builders and parameter assignments",
  ["kwant/builder.py: FiniteSystem.__init__, InfiniteSystem.__init__, _value_params_pair_cache"])
p("C92","interface_order and the range of hoppings decide whether an infinite system can be finalized",
  "InfiniteSystem(builder, interface_order) succeeds iff all hoppings connect equal or neighbouring cells and interface_order (if given) is sorted and some translation maps it onto the sites that have a hopping to the next cell; otherwise ValueError.",
  "all reachable 1D-symmetric builders, all interface orders","for all site lists",
  ["kwant/builder.py: InfiniteSystem.__init__"])
p("C93","Sparse submatrices never overflow the arrays allocated for them",
  "hamiltonian_submatrix(sparse=True) never writes more elements than the size of the arrays computed beforehand from the orbital numbers (for systems without self-loops in the graph).",
  "all systems, site selections and block shapes","memory safety of unchecked array writes for all inputs",
  ["kwant/_system.pyx: make_sparse, make_sparse_full"])
p("C94","smatrix rows are the outgoing modes of out_leads in order",
  "smatrix(syst, energy, out_leads, in_leads) accepts exactly the strictly increasing, nonempty lists of leads with modes; the rows of the result are the propagating outgoing modes of the leads in out_leads, lead by lead, and the columns the incoming modes of the leads in in_leads.",
  "all systems (including leads without hopping), all lead lists",
  "the number of leads, their numbers of modes and the requested subsets are unbounded; tests use leads that all have modes",
  ["kwant/solvers/common.py: SparseSolver.smatrix, SparseSolver._make_linear_sys"])
p("C95","The linear system is the scattering problem",
  "A vector solves the linear system set up by smatrix/wave_function with the right-hand side of incoming mode b of lead i if and only if it consists of a wave function in the scattering region and amplitudes of the outgoing and evanescent modes in all leads that solve the Schroedinger equation in the scattering region and match at every lead; for greens_function the solutions are exactly the columns of (E - H - Sigma)^-1 at the interface orbitals of the requested leads.",
  "all Hamiltonians, energies, numbers of leads, mode matrices and self-energies; all incoming modes",
  "an equivalence over all systems and all solutions; tests compare conductances of single systems",
  ["kwant/solvers/common.py: SparseSolver._make_linear_sys, SparseSolver.greens_function, SparseSolver.smatrix"])
p("C96","Green's function transmissions conserve current",
  "For a Hermitian Hamiltonian and all leads requested, GreensFunction.transmission(a, b) summed over all b, or over all a, is the number of propagating modes of the fixed lead.",
  "all Hermitian Hamiltonians, all (not necessarily Hermitian) self-energies, all numbers of leads",
  "an algebraic identity over all matrices; tests check it for random samples to rounding error",
  ["kwant/solvers/common.py: GreensFunction._transmission, GreensFunction._a_ttdagger_a_inv, BlockResult.submatrix"])
p("C97","wave_function and ldos",
  "wave_function(syst)(lead) returns, for each incoming mode of the lead, the wave function in the scattering region of the scattering state of that mode, and raises ValueError for leads without modes; ldos is the sum over all incoming modes of all leads of |psi|^2 / 2 pi, independently of how many right-hand sides are solved at once.",
  "all systems, leads, modes, batch sizes nrhs >= 1",
  "the numbers of modes and leads and the batch size are unbounded",
  ["kwant/solvers/common.py: WaveFunction, SparseSolver.ldos"])
p("C68","Accepted discrete symmetries are in canonical form",
  "If the constructor of DiscreteSymmetry accepts projectors and symmetries, then for each symmetry S and each projector p_i there is at most one projector p_j for which the block p_i^+ S p_j^(*) is not zero.",
  "all dimensions, projectors and symmetries","a continuum of matrices",
  ["kwant/physics/symmetry.py: DiscreteSymmetry.__init__"])
p("C69","validate() lists exactly the broken symmetries",
  "validate(matrix) returns, in the documented order and without repetition, exactly the names of the symmetries that the (zero-padded) matrix breaks: projectors that do not commute with it, a time reversal that does not commute with it as an antiunitary operator, a particle-hole or chiral symmetry that does not anticommute with it.",
  "all matrices, square or rectangular, and all accepted symmetries (exact arithmetic)","a continuum of matrices",
  ["kwant/physics/symmetry.py: DiscreteSymmetry.validate"])
p("C100","Accepted projectors stack to a unitary matrix",
  "If the constructor of DiscreteSymmetry accepts projectors, the nonzero columns of all projectors together form an orthonormal basis.",
  "all lists of rectangular matrices","a continuum of matrices",
  ["kwant/physics/symmetry.py: DiscreteSymmetry.__init__"])
p("C98","circular(): unitarity, all documented symmetries, and the requested topological charge",
  "For every draw of the random numbers circular(n, sym, charge) returns a unitary matrix with all time-reversal, particle-hole and chiral symmetries documented for the class; in class D its determinant is the charge, in class DIII the charge is the Pfaffian of i times the matrix, in AIII and BDI (CII) its trace is n-2*charge (n-4*charge); for n>=2 and documented parameters it never raises, in particular the 'QR decomposition symmetry failure' cannot happen in exact arithmetic.",
  "all n, ten symmetry classes, all draws, all charges","tests draw a handful of matrices; the symplectic case rests on an unexplained property of QR",
  ["kwant/rmt.py: circular"])

p("C99","Bands returns the curvatures",
  "For every non-degenerate band the curvature returned by Bands(k, derivative_order=2) is the second derivative of the energy.",
  "all k, all systems, all contents of uninitialised memory","NumPy leaves the masked entries of the result uninitialised: tests see whatever the memory contains",
  ["kwant/physics/dispersion.py: Bands.__call__"])
p("C101","Peierls phases of an infinite system are periodic and give the right flux through every closed walk",
"For an infinite system (a lead) with a connected unit cell and a magnetic field with the symmetry of the lead, magnetic_gauge(lead)(field) returns a function that gives, for every hopping of the infinite system in whatever unit cell, a unit number; reversing the hopping conjugates it; translating the hopping by periods does not change it; and the product around every closed walk, however many unit cells it spans, is exp(i pi flux) with the flux through that walk.",
"all infinite systems with a connected unit cell that has hoppings, all periodic fields with a vector potential (in particular all constant fields), all hoppings in all unit cells, all closed walks",
"Walks through any number of unit cells, for every graph of the unit cell; the loops are only searched for in two cells, and that this suffices is a topological argument.",
["kwant/physics/gauge.py:_loops_in_infinite,_check_infinite_syst,_previous_phase_infinite,_infinite_wrapper,_peierls_infinite"])

p("C102","shape() yields exactly the connected part of the shape, in the fundamental domain, and ends if it is finite",
"For a lattice, a shape function f and a starting position, iterating lattice.shape(f, start)(symmetry) yields exactly the sites that are in the shape, belong to the fundamental domain of the symmetry, and whose unit cell can be reached from the unit cells of the sites closest to start by steps between neighboring unit cells (those whose Voronoi cells share a face) that contain a site of the shape; each site once. It ends if and only if there are finitely many of them, and raises ValueError exactly if none of the sites closest to start is in the shape.",
"all lattices (any number of sublattices, any dimension, any linearly independent primitive vectors), all shape functions, starting positions and translational symmetries, all orders in which Python iterates over the sets involved",
"The fill runs through arbitrarily many layers of an arbitrary shape and keeps only the last two: that nothing is visited again or missed holds for all shapes or not at all.",
["kwant/lattice.py:Polyatomic.shape,Polyatomic.__init__,Monatomic.__init__,Monatomic.closest"])
p("C103","closest() and n_closest() return the closest sites",
"For a monatomic lattice with arbitrary linearly independent primitive vectors and offset, closest(pos) returns the tag of a site whose distance to pos is minimal; n_closest(pos, n) returns n different tags in order of distance, and no other site is closer than any of them; closest(lat.pos(tag)) == tag; construction and both searches end.",
"all lattices in all dimensions, all positions (also outside of the lattice plane), all n",
"The basis may be as skewed as one likes; that the reduced basis and the bounded search cannot miss a closer site is a statement about all of them.",
["kwant/lattice.py:Monatomic.__init__,Monatomic.n_closest,Monatomic.closest,Monatomic.pos","kwant/linalg/lll.py:lll,cvp"])
p("C105","wire() yields one period of an infinite cylinder",
"For a symmetry with one period commensurate with the lattice, iterating lattice.wire(center, radius)(symmetry) yields exactly those sites of the fundamental domain that lie within distance radius of the axis through center along the period and for which an equivalent site is reached by a flood fill of the whole infinite cylinder.",
"all lattices, centers, radii, commensurate periods and iteration orders",
"The flood fill sees only the fundamental domain; that it reaches what the fill of an infinite cylinder reaches quantifies over infinitely many walks.",
["kwant/lattice.py:Polyatomic.wire,Polyatomic.shape"])
p("C106","has_subgroup and subgroup of TranslationalSymmetry mean what they say",
"sym.has_subgroup(other) is true if and only if every period of other is an integer combination of the periods of sym; then, on the sites of every family added to both, each element of other acts as an element of sym. sym.subgroup(*generators) succeeds exactly for linearly independent generators, its periods are the integer combinations given by the generators, and it is a subgroup in the sense of has_subgroup.",
"all sets of linearly independent periods, all generators, all families with whatever other_vectors",
"It ranges over all lattices of periods and all integer combinations of them.",
["kwant/lattice.py:TranslationalSymmetry.subgroup,TranslationalSymmetry.has_subgroup"])
p("C107","add_site_family accepts exactly the commensurate lattices, and the cached data describe translations by the periods",
"TranslationalSymmetry.add_site_family(fam, other_vectors) raises ValueError exactly if a period is not a lattice vector of the family, or other_vectors are too many or linearly dependent on the periods; it never fails to complete them to a basis. Afterwards, acting with the group element g moves the position of every site of the family by the sum of g_i times period i.",
"all lattices, numbers of periods, periods, other_vectors, sites and group elements",
"The completion picks unit vectors greedily from singular vectors; that this always ends in an invertible matrix holds for all integer matrices or not at all.",
["kwant/lattice.py:TranslationalSymmetry.add_site_family,TranslationalSymmetry.act"])

p("C104","neighbors(n) returns exactly one of each pair of n-th nearest neighbor hoppings",
"For a lattice with any number of sublattices, neighbors(n) returns hopping kinds without repetition such that every pair of sites whose distance is the n-th one (exactly n different distances between sites are smaller) is matched, in exactly one direction, by exactly one of them, and all matching hoppings have that length; of a hopping and its reverse on one sublattice the lexicographically larger one is returned. It ends and raises no exception, for all sufficiently small tolerances.",
"all lattices in all dimensions, all numbers of sublattices and offsets (also out of the lattice plane), all n, all tolerances below a bound that depends on the lattice and n",
"Neighbors are searched per pair of sublattices and merged; that the n closest groups of each pair suffice and that no shell is missed or merged holds for all lattices or not at all.",
["kwant/lattice.py:Polyatomic.neighbors,Monatomic.n_closest","kwant/builder.py:HoppingKind"])

p("C108","The mode eigenproblem of a lead is its Bloch problem, whichever algorithm is chosen",
"For a lead with cell Hamiltonian h_cell and hopping h_hop, the eigenproblem solved by kwant.physics.modes has, for every value of the argument stabilization and every translation eigenvalue other than zero, solutions in one-to-one correspondence with the wave functions of the infinite lead that satisfy the Schroedinger equation and are multiplied by that eigenvalue from cell to cell; the real-space wave function that is returned for a mode is that wave function.",
"all cell Hamiltonians and hoppings of any size (also singular hoppings and non-Hermitian cells), all values of stabilization, all eigenvalues",
"Four algorithms are chosen between by condition numbers; tests compare them on sample matrices, equivalence with the infinite system must hold for all matrices.",
["kwant/physics/leads.py:setup_linsys,modes"])
p("C110","The self-energy of the modes solves the Dyson equation of the lead",
"StabilizedModes.selfenergy() returns Sigma = V^+ G V, where V is the hopping of the lead and G = (E - H - Sigma)^-1 is the surface Green's function of the semi-infinite lead (self-consistency of adding one more cell).",
"all leads, all algorithms, all bases of the propagating modes and all Schur bases of the evanescent ones",
"Ranges over all matrices and all bases an eigenvalue solver may return.",
["kwant/physics/leads.py:StabilizedModes.selfenergy,setup_linsys,compute_block_modes"])
p("C111","The broadening of a Hermitian lead is positive semidefinite with rank at most the number of modes",
"For a Hermitian lead whose outgoing propagating modes are normalized to unit current, i (Sigma - Sigma^+) = W W^+ where W has one column per outgoing propagating mode; in particular it is positive semidefinite.",
"all Hermitian leads, all algorithms, all bases of modes as in C110",
"A spectral inequality for all matrices; current conservation must hold for degenerate and evanescent modes alike.",
["kwant/physics/leads.py:StabilizedModes.selfenergy,make_proper_modes"])

p("C109","Propagating modes form a normalized, sorted eigenbasis of the velocity",
"Without discrete symmetries, the propagating modes returned for a lead are Bloch solutions at their stated momenta in [-pi, pi); those at the same momentum are orthogonal with norm squared 1/|v|, and the matrix of the derivative of the Bloch Hamiltonian between them is diagonal with entries sign(v); together they span all propagating solutions; exactly the first half has negative velocity; negative-velocity modes are sorted by increasing momentum, the others by decreasing momentum, and modes of equal momentum by increasing velocity. The modes carry unit current and no current flows between different ones. An error is raised exactly if a mode has (nearly) zero velocity or the numbers of left- and right-movers differ. The result does not depend on uninitialised memory.",
"all Hermitian leads, all algorithms, all bases of the eigenspaces that the eigenvalue solver may return, all degeneracies, all initial memory contents",
"degenerate eigenspaces come with arbitrary bases, and tests see one basis per run; memory contents are not controlled by tests",
["kwant/physics/leads.py:make_proper_modes","kwant/physics/leads.py:PropagatingModes"])

p("C112","The scattering matrix is unitary",
"If the Hamiltonian of the scattering region is Hermitian, the energy is real and all leads are given by modes that carry unit current (as physics.modes provides), then the scattering matrix between all leads computed by smatrix is unitary: S^+ S = S S^+ = 1. The transmissions into, and out of, each lead add up to its number of modes. With additional leads given by self-energies, the norm that is missing in the outgoing modes is exactly what these leads absorb.",
"all systems with any number of leads, interfaces that may overlap, numbers of modes and orbitals, all energies",
"A global algebraic identity that no number of examples establishes; floating point tests see it up to rounding for a few systems.",
["kwant/solvers/common.py:SparseSolver.smatrix,_make_linear_sys","kwant/physics/leads.py:StabilizedModes"])

p("C113","The modes of a lead: numbers, solutions and currents",
"For a Hermitian lead (without symmetries inside the block), at an energy that is not at a band edge or in a flat band, the modes computed for a block satisfy: there are as many modes moving towards the scattering region as away from it, and together with the evanescent modes the outgoing ones are as many as the rank of the hopping; the propagating modes are Bloch waves with the momenta returned; the evanescent modes are solutions in the lead that decay away from the scattering region, and are linearly independent; each incoming mode carries current -1, each outgoing mode +1, evanescent modes none, and there is no current between different modes. The only error that can be raised, once the linear system is set up, is due to a Bloch wave whose velocity is below the tolerance: the numbers of left- and right-movers never disagree.",
"all Hermitian cell Hamiltonians and hoppings of any size and rank, all three ways to set up the linear system, all orders of eigenvalues",
"The classification of eigenvalues, the count of modes and the vanishing of the current of evanescent modes are consequences of conservation laws that hold for every lead; tests check them for a few leads and up to rounding.",
["kwant/physics/leads.py:compute_block_modes,unified_eigenproblem"])

p("C114","The modes of a lead with conservation laws and discrete symmetries",
"kwant.physics.modes, given projectors on the blocks of a conservation law and discrete symmetries that relate different blocks, returns the modes of the whole lead, however the modes of a block are obtained (by calculation, as a copy of an identical block, or by time reversal, particle-hole or chiral symmetry from another block): all returned wave functions are Bloch waves of the lead with the momenta and velocities returned, they are complete, orthogonal at equal momentum and normalized to unit current; the first half moves towards the scattering region and the second half away; the modes are ordered by blocks, block_nmodes counts them, and every wave function lies in the space of its block; the stabilized modes are those wave functions and decaying solutions in the lead, carry the currents +1, -1 and 0, and their number is the rank of the hopping. A hopping to only some of the orbitals of the cell is treated as the square one. The only errors are those of the calculation for a block.",
"all Hermitian leads of any size, all complete orthonormal sets of projectors that commute with the Hamiltonian, all symmetries that relate different blocks, any number of blocks",
"The relation between modes of different blocks, with conjugation, sign and reordering, must hold for every combination of symmetries and number of modes; tests have blocks with few modes, for which wrong permutations are not visible.",
["kwant/physics/leads.py:modes,transform_modes,group_halves,nonzero_symm_projection"])

p("C115","The self-energy of a lead is that of outgoing waves",
"For a lead at an energy that is not at a band edge or in a flat band, and without a bound state at the end of the isolated lead, the self-energy returned by physics.selfenergy, or by the modes of physics.modes with any conservation laws, replaces the semi-infinite lead exactly: for all amplitudes at the interface there is exactly one wave in the lead that continues them and consists only of Bloch waves moving away from the scattering region and a decaying part, and the self-energy applied to the amplitudes gives what hops from this wave back to the interface. Consequently the self-energy is determined by the lead, does not depend on the algorithm or basis, solves the Dyson equation, and its broadening i(Sigma - Sigma^+) is positive semidefinite.",
"all Hermitian leads of any size, hoppings of any rank to any number of interface orbitals, all algorithms for the linear system, all bases of degenerate eigenspaces",
"The self-energy is defined by waves in an infinite lead; a test can only compare with a few analytically known or numerically approximated ones.",
["kwant/physics/leads.py:selfenergy,modes,StabilizedModes.selfenergy,compute_block_modes,make_proper_modes"])

p("C116","The scattering matrix is that of the infinite system",
"For a finite Hermitian system with semi-infinite leads, at an energy that is not at a band edge or in a flat band of a lead: the elements of the scattering matrix returned by smatrix (for any requested leads) are the amplitudes of the outgoing modes, far from the scattering region, in the solution of the Schroedinger equation of the whole infinite system in which one incoming mode has amplitude one. These amplitudes are determined by the infinite system and the modes alone, the matrix of all leads is unitary, and transmission returns the corresponding probabilities. If the infinite system has no bound state at this energy, smatrix succeeds and its linear system has exactly one solution.",
"all Hermitian systems with any number of leads of any size with conservation laws and discrete symmetries, all energies outside of band edges and flat bands, all lists of requested leads",
"The property speaks about solutions in an infinite space with boundary conditions at infinity; tests can compare with a few analytically known scattering matrices up to rounding.",
["kwant/solvers/common.py:SparseSolver.smatrix,_make_linear_sys,SMatrix.transmission","kwant/physics/leads.py:modes"])

p("C117","The Green's function is the response of the infinite system and gives the same transmissions as the scattering matrix",
"For a finite Hermitian system with semi-infinite leads, at an energy that is not at a band edge or in a flat band of a lead, and with leads that have no bound state at their end: the columns of the matrix returned by greens_function (for any requested leads) are, at the orbitals of the interfaces, the solution of (E - H) psi = delta in the whole infinite system with a source at an orbital of an interface, in which only outgoing waves leave through the leads. GreensFunction.transmission between any two requested leads, equal or not, returns the same number as the scattering matrix: the sum of the probabilities of all pairs of modes (Fisher-Lee relation, including reflection). If the infinite system has no bound state at this energy, greens_function succeeds, and the response is unique.",
"all Hermitian systems with any number of leads of any size, all energies outside of band edges and flat bands, all lists of requested leads",
"The property equates two algorithms on all systems and speaks about an infinite space; tests can compare a few systems up to rounding.",
["kwant/solvers/common.py:SparseSolver.greens_function,_make_linear_sys,GreensFunction._transmission,GreensFunction._a_ttdagger_a_inv","kwant/physics/leads.py:selfenergy"])

p("C118","Wave functions are the scattering states, and ldos is the local density of states, of the infinite system",
"For a finite Hermitian system with semi-infinite leads, at an energy that is not at a band edge or in a flat band of a lead: row b of wave_function(...)(lead) is, at all orbitals of the scattering region, the solution of the Schroedinger equation of the whole infinite system in which mode b of the lead comes in with amplitude one and no other mode comes in; without bound states there is only one. ldos returns for each orbital -Im G / pi, where G is the amplitude at the orbital in the solution of (E - H) psi = delta in the whole infinite system with a source at this orbital and only outgoing waves in the leads, whatever the number of right-hand sides solved at once.",
"all Hermitian systems with any number of leads of any size, all energies outside of band edges and flat bands, all orbitals, all batch sizes",
"The property speaks about solutions in an infinite space and equates a sum over modes with a Green's function; tests can compare a few systems up to rounding.",
["kwant/solvers/common.py:SparseSolver.wave_function,WaveFunction,SparseSolver.ldos"])

p("C119","Chebyshev moments of SpectralDensity do not depend on the calls that produced them",
"After the construction of a SpectralDensity and any sequence of calls of add_moments and add_vectors, successful or refused, it holds for every vector v_r of the vector factory used so far and every moment n < num_moments exactly <v_r| T_n((H - b) / a) |v_r> (density of states), respectively operator(v_r, T_n((H - b) / a) v_r). A refused call leaves the object unchanged, and calls are refused exactly if the arguments are not positive integers, there are not enough vectors, or moments are added without accumulate_vectors=True. Objects with the same numbers of moments and vectors are the same, whatever calls led to them.",
"all Hermitian Hamiltonians (for operators all matrices), all vectors, finite or infinite iterables, all sequences of calls",
"The state depends on the history of calls and on the parity of the numbers of moments (two moments are obtained per product); tests try a few histories.",
["kwant/kpm.py:SpectralDensity,SpectralDensity.add_moments,SpectralDensity.add_vectors,SpectralDensity._update_moments_list,_VectorFactory"])

p("C120","The Hamiltonian is mapped strictly into the interval of the Chebyshev polynomials",
"If the bounds contain the spectrum and 0 < eps < 2, every eigenvalue x of the Hamiltonian becomes (x - b) / a with modulus at most 1 - eps / 2, and the attribute bounds strictly contains the spectrum. Bounds are refused exactly if their distance is at most eps / 4 times the modulus of their sum.",
"all Hamiltonians, bounds and eps between 0 and 2",
"Outside of the interval the Chebyshev recursion explodes exponentially; a boundary case needs an eigenvalue at the exact bound.",
["kwant/kpm.py:_rescale,SpectralDensity.__init__"])

p("C121","energies and densities agree with evaluation at an energy",
"energies has 2 num_moments elements in ascending order, strictly inside of bounds, and densities[k], calculated by fast Fourier transform, is what a call with energies[k] returns, for any kernel.",
"all spectral densities, any numbers of moments, any kernels, any operators with scalar or array results",
"Two different algorithms must agree for every size; reversed order or shifted nodes are hidden by symmetric spectra.",
["kwant/kpm.py:SpectralDensity.__call__,SpectralDensity.energies,_calc_fft_moments,_chebyshev_nodes"])

p("C122","integrate is exact for polynomials and normalized",
"Without a kernel, integrate(f) for any polynomial f of degree less than num_moments is exactly the mean over the vectors of <v_r|f(H)|v_r> (with an operator: operator(v_r, f(H) v_r)), hence Tr f(H) divided by the number of orbitals when the vectors are all unit vectors; with mean=False the same for each vector. With the Jackson or Lorentz kernel integrate() is the mean of <v_r|v_r>.",
"all Hermitian Hamiltonians, all vectors, all polynomials below the number of moments",
"A quadrature rule is exact for a class of functions; tests sample functions up to rounding and stochastic noise.",
["kwant/kpm.py:SpectralDensity.integrate,SpectralDensity._moments,jackson_kernel,lorentz_kernel,_calc_fft_moments"])

p("C123","The density of states is never negative",
"For the density of states of a Hermitian Hamiltonian with its spectrum within the bounds, with the Jackson kernel or the Lorentz kernel (any nonzero parameter), the values returned for any energy inside the bounds and all elements of densities are real and nonnegative, for every number of moments and all vectors.",
"all Hermitian Hamiltonians, numbers of moments, vectors and energies within the bounds",
"Positivity is an inequality for all energies, orders and spectra; tests sample.",
["kwant/kpm.py:jackson_kernel,lorentz_kernel,SpectralDensity.__call__"])

p("C127","Operators accept exactly the onsite matrices and Hamiltonians that fit the system",
"A dictionary of onsite matrices is accepted if and only if the matrix of every family is square with as many rows as the family has orbitals (and Hermitian, unless check_hermiticity is off), and each site then has the matrix of its family. A single onsite matrix is accepted if and only if it is square (and Hermitian), and is a number or all sites have as many orbitals as it has rows. With check_hermiticity a Hamiltonian block of the right shape is accepted if and only if the block in the opposite direction is its Hermitian conjugate.",
"all systems, all onsite arguments, all Hamiltonians",
"Acceptance must be exact for all sizes and entries; a missed case silently gives wrong expectation values.",
["kwant/operator.pyx:_normalize_onsite,_check_onsite,_check_ham,_is_herm_conj,_DictOnsite"])

p("C124","The Correlator computes the Kubo-Bastin response from its moments",
"For every Hamiltonian, operators and vectors and after any history of add_moments and add_vectors (with accumulate_vectors; otherwise add_vectors only), moments_matrix[m, n] is the mean over the vectors of <T_m(h) O1 v | O2 T_n(h) v> (Tr[O1^+ T_m O2 T_n]/d for the unit vectors) for the numbers of moments and vectors the object reports; refused calls leave it unchanged. A call with temperature >= 0 returns 8/a^2 times Simpson's rule for the Fermi function times the sum over m, n of g_m g_n mu_mn (rho_m dG+_n/dE + dG-_m/dE rho_n), with the Chebyshev coefficients of the spectral function and of the retarded and advanced Green's functions; negative temperatures are refused.",
"all Hamiltonians, operators, vectors, kernels, histories of calls, energies, chemical potentials, temperatures",
"Two interleaved objects must stay synchronized over all histories; signs and transpositions cancel in symmetric tests.",
["kwant/kpm.py:Correlator,fermi_distribution"])

p("C125","LocalVectors and RandomVectors give local densities of states and traces",
"LocalVectors(syst, where) has as many elements as there are orbitals in where and yields their unit vectors in order (without where: all orbitals), so that a spectral density built with them is exactly the mean of the local densities of states. Vectors of RandomVectors have entries of modulus one in the orbitals of where and zeros elsewhere, and the mean of <v|A|v> over the random numbers is the sum of the diagonal entries of A in these orbitals, for every matrix A.",
"all systems, all selections of sites, all matrices; the mean is over independent uniform random numbers",
"Statistical statements are only tested with wide tolerances; orbital numbering must be right for all mixtures of families.",
["kwant/kpm.py:LocalVectors,RandomVectors,_from_where_to_orbs,_normalize_orbs_where"])

p("C126","Velocity operators of conductivity and the Fermi function",
"The velocity operator that conductivity builds for a direction is i[H, x] with every orbital at the position of its site, Hermitian if H is, and its expectation value is the rate of change of that of the position for every solution of the Schroedinger equation; directions that do not exist are refused. The Fermi function lies in [0, 1], decreases with energy, satisfies f(mu+x) = 1 - f(mu-x), is a step at zero temperature, and negative temperatures are refused.",
"all Hamiltonians, positions, directions, solutions of the Schroedinger equation, energies and temperatures",
"Sign conventions and Hermiticity must hold for all matrices and positions.",
["kwant/kpm.py:_velocity,conductivity,fermi_distribution"])

p("C128","discretize replaces momenta by central differences",
"For every Hamiltonian that is a polynomial in the momenta with position-dependent matrix coefficients in any operator order, the full set of hoppings computed by the discretizer, applied to any wave function, equals the Hamiltonian in which every k_c of a discretized coordinate is replaced by the central difference -i (psi(x+s) - psi(x-s)) / (2 s) and everything else acts by multiplication at its place in the product; s is the grid spacing for summands of odd degree in c and half of it for summands of even degree.",
"all Hamiltonians (any number of summands, factors, powers, orderings, matrix size), coordinates, grid spacings, wave functions, positions",
"Operator ordering and the rescaling of offsets interact for every word in non-commuting symbols; tests cover a handful of expressions.",
["kwant/continuum/discretizer.py:_differentiate,_discretize_summand,_discretize_expression,discretize_symbolic","kwant/continuum/_common.py:gcd"])

p("C129","The hoppings of a discretized Hamiltonian have exactly the expected ranges",
"The offsets of the hoppings of a summand with n_c momenta along c are exactly the integer vectors o with |o_c| <= n_c and n_c - o_c even, divided by two along the coordinates with even n_c; the onsite is always present; an expression without momenta gives an onsite only.",
"all polynomial Hamiltonians and coordinates",
"Missing or spurious hoppings depend on the degree along every coordinate.",
["kwant/continuum/discretizer.py:_discretize_summand,_discretize_expression"])

p("C130","discretize keeps exactly one hopping of each pair",
"Of the hoppings of a discretized Hamiltonian the onsite and exactly one of each pair of opposite offsets are kept, namely the one whose first nonzero component is positive, and the value kept is the one of the full discretization.",
"all polynomial Hamiltonians and coordinates",
"The code keeps the upper half of a sorted list, which is correct only if the list is symmetric.",
["kwant/continuum/discretizer.py:discretize_symbolic"])

p("C131","The discretization of a Hermitian Hamiltonian is Hermitian",
"If the continuum Hamiltonian equals its formal adjoint (order of the factors reversed, coefficients conjugated, matrix transposed), the hopping to the opposite offset at the displaced position is the Hermitian conjugate of the hopping, so that dropping half of the hoppings loses nothing.",
"all formally Hermitian polynomial Hamiltonians with position-dependent coefficients",
"Needs operator ordering to be respected for all words.",
["kwant/continuum/discretizer.py:_discretize_expression,discretize_symbolic,build_discretized"])

p("C132","The builder returned by discretize acts as the discretized Hamiltonian",
"For a formally Hermitian Hamiltonian the translationally invariant builder returned by discretize has, between any two sites, exactly the matrix element of the discretized Hamiltonian on the grid with the given spacings (including the coupling of coefficients evaluated at the positions of the sites), is Hermitian, and its action on any wave function on the grid is the Hamiltonian with central differences.",
"all formally Hermitian polynomial Hamiltonians, grids, sites and wave functions",
"Sign conventions of hopping directions and of the site at which coefficients are evaluated must agree for all hoppings.",
["kwant/continuum/discretizer.py:discretize,build_discretized,_builder_value"])

p("C133","The discretized Hamiltonian converges to the continuum Hamiltonian",
"For smooth coefficients and wave functions the discretized Hamiltonian acting on the wave function converges to the differential operator (k_c = -i d/dc) acting on it when the grid spacings go to zero, at every point.",
"all polynomial Hamiltonians with smooth coefficients, all smooth wave functions, points and ways in which the spacings go to zero",
"A limit, for all functions.",
["kwant/continuum/discretizer.py:_differentiate,_discretize_expression"])

p("C134","Plane waves see the dispersion with k replaced by sin(k s)/s",
"For Hamiltonians with constant coefficients the plane wave exp(iqx) is an eigenstate of the discretization, with every k_c replaced by sin(q_c s)/s, s the grid spacing (half of it for even degree); k^2 gives 2 (1 - cos(q a)) / a^2.",
"all constant polynomial Hamiltonians, momenta, grid spacings",
"Holds for all momenta.",
["kwant/continuum/discretizer.py:_discretize_expression"])

p("C135","discretize refuses grids, coordinates and names that do not fit",
"Hamiltonians with the reserved names a_x, a_y, a_z are refused; without coords the coordinates are exactly those whose momenta occur, sorted, and it is an error if there are none; explicit coords are accepted if and only if they are not empty, sorted and substrings of xyz; with a number (or nothing) as grid the lattice has this spacing (1) in all directions and no offset; refused are: no or unsorted coordinates, grid together with grid_spacing, square matrices of primitive vectors of another dimension or not diagonal, and a wrong number of orbitals.",
"all arguments",
"Acceptance must be exact over all combinations of arguments.",
["kwant/continuum/discretizer.py:discretize_symbolic,build_discretized"])

p("C136","The ladder operators of the Landau basis have the commutator of the field",
"The operators that to_landau_basis puts in the place of two momenta satisfy [k_0, k_1] = -iB for both signs of B, if a and a^dagger are swapped for a negative field as the evaluation of the terms does; the prefactor the code computes for a word of ladder operators on level n is the matrix element of the product of the operators.",
"all fields, all words of ladder operators, all levels",
"Holds for words of every length and every level.",
["kwant/continuum/landau_levels.py:to_landau_basis,_ladder_term,_evaluate_ladder_term"])

p("C137","Landau level matrix elements can be evaluated",
"If no summand of the Hamiltonian has more than six momenta of the plane, all matrix elements between Landau levels can be evaluated without error; with seven this fails, since a lowered level below zero makes the argument of the square root negative although the matrix element is zero.",
"all Hamiltonians, levels, fields, positions",
"The intermediate level of every word of operators has to be followed.",
["kwant/continuum/landau_levels.py:_evaluate_ladder_term,discretize_landau"])

p("C138","discretize_landau builds the Hamiltonian in the Landau level basis",
"For a field that is not negative the builder acts, on states in the first N Landau levels, as the Hamiltonian with the two momenta replaced by ladder operators and the third one by central differences in the normal direction, truncated to N levels.",
"all formally Hermitian polynomial Hamiltonians with coefficients that depend on the normal coordinate, all N, grid spacings, states, and fields that are not negative",
"Needs the direction of every hopping and the position where coefficients are evaluated to be right for all words of operators.",
["kwant/continuum/landau_levels.py:discretize_landau,_builder_value"])

p("C139","discretize_landau for a negative field, and Hermiticity",
"The matrix built is Hermitian for every field, and for a negative field it is (up to a change of basis of the Landau levels) the Hamiltonian for that field.",
"all formally Hermitian polynomial Hamiltonians, all N, grid spacings, sites and fields",
"The sign of the field changes the order of all operators.",
["kwant/continuum/landau_levels.py:discretize_landau,_builder_value,_evaluate_ladder_term"])

p("C140","Choice of the two momenta, and the field parameter",
"momenta may be omitted, a pair of the indices 0, 1, 2 or a pair of the names k_x, k_y, k_z, and everything else is refused; the normal coordinate is the third one if the two are different; every value function has the field as a parameter or sets it.",
"all arguments, all names of parameters",
"Acceptance must be exact over all arguments; parameter names are arbitrary strings.",
["kwant/continuum/landau_levels.py:_normalize_momenta,_find_normal_coordinate,_builder_value"])

p("C141","The Fibonacci heap never follows a NULL pointer, loops or leaves its arrays",
"No operation on the heap follows a NULL pointer, runs for ever, or accesses the table of roots by rank outside of its 100 elements.",
"all numbers of nodes and all histories of insertions, decreases and removals of the minimum",
"The shape of the pointer structure depends on the whole history; there is no bound on its length.",
["kwant/graph/dijkstra.pyx:add_sibling,add_child,remove,insert_node,decrease_val,link,remove_min"])

p("C142","The Fibonacci heap is a priority queue",
"remove_min returns a node that is in the queue and has the smallest value of all nodes in the queue, and the heap says it is empty exactly if it is.",
"all histories of insertions, decreases and removals of the minimum, with all values",
"An error in one sibling pointer shows up only after a particular later history.",
["kwant/graph/dijkstra.pyx:insert_node,decrease_val,link,remove_min"])

p("C143","dijkstra_directed finds shortest paths with its own heap",
"With the pointer-level Fibonacci heap, a path is returned if and only if there is one; it has no repeated nodes, the returned length is its length, and no walk is shorter.",
"all directed graphs with non-negative (possibly infinite) weights, sources and targets",
"Composes the histories of the heap with the search over all graphs.",
["kwant/graph/dijkstra.pyx:dijkstra_directed,_calculate_path"])

p("C144","Shot noise of two terminals",
"two_terminal_shotnoise of a unitary scattering matrix is the sum of T(1-T) over the transmission eigenvalues, whichever of the four blocks was calculated; it is between zero and a quarter of the number of modes; other numbers of leads are refused.",
"all unitary scattering matrices of two leads with any numbers of modes, all four choices of leads",
"Ranges over all unitary matrices.",
["kwant/physics/noise.py:two_terminal_shotnoise"])

p("C145","Interpolated currents are the hoppings convoluted with the bump",
"At every point of the grid, interpolate_current gives the sum over hoppings of the current times the integral of the bump along the straight line between the sites, up to one constant factor; it is linear in the current and zero at the border; the grid contains all sites and half a width more; the width is the one asked for or four times the shortest hopping (longer than a thousandth of the longest); arrays of the wrong length are refused and everything else with hoppings in up to three dimensions succeeds.",
"all systems with hoppings in one, two or three dimensions, all currents, widths and numbers of points",
"The slices of the grid must contain the whole support of every bump for all positions and widths; the closed form of the smoothing function must be the integral for all distances.",
["kwant/plotter.py:interpolate_current,_interpolate_field,_smoothing,_optimal_width"])

p("C146","Interpolated densities are the sites convoluted with the bump",
"At every point of the grid, interpolate_density gives the sum over sites of the density times the bump, up to one constant factor; it is zero at the border and where it is masked; the width is the one asked for or four times the shortest hopping; arrays of the wrong length are refused and everything else in up to three dimensions succeeds.",
"all systems in one, two or three dimensions, all densities, widths and numbers of points",
"The slices of the grid must contain the whole support of every bump for all positions and widths.",
["kwant/plotter.py:interpolate_density,_interpolate_field,_bump,_mask,_optimal_width"])

p("C147","Interpolated currents conserve what the discrete ones conserve",
"The divergence of the smoothed current is the smoothed current that leaves the sites; where all sites conserve the current the smoothed field has no divergence anywhere.",
"all systems in any dimension, all currents and points of space",
"Tests check the divergence numerically for a few systems on a grid.",
["kwant/plotter.py:interpolate_current,_smoothing"])

p("C148","Interpolated fields are normalized",
"The integral of the interpolated density is the sum of the densities, and the flux of the interpolated current through a plane away from the sites is the current of the hoppings that cross it.",
"all systems in one, two and three dimensions, all widths, all planes",
"Tests compare with tolerances that hide constant factors.",
["kwant/plotter.py:interpolate_density,interpolate_current,_smoothing_cross_sections"])

p("C149","Peierls phases of a system with leads give the right flux through every closed walk",
"For a system with leads that magnetic_gauge accepts (patches of different leads not adjacent, unit cells of the leads connected, at least one hopping of the reduced scattering region at an interface site), with fields whose vector potentials agree on the hoppings of the lead patches, the phases of the scattering region combined with those of the leads multiply to exp(i pi flux) around every closed walk in the scattering region plus one cell of every lead; the phases are unit numbers and reversing a hopping conjugates them; a wrong number of fields is refused.",
"all systems with any number of leads and any padding, all fields, all closed walks, all choices of spanning trees and shortest paths",
"The links fixed by the leads, the spanning tree of the cut region and the tree of components must together contain no closed loop for every system; tests look at a few lattices.",
["kwant/physics/gauge.py:_loops_in_composite,_extended_scattering_region,_interior_links,_make_metatree,_spanning_tree_composite,_previous_phase_composite,_peierls_composite"])

p("C150","magnetic_gauge accepts exactly the systems whose lead gauges can be combined",
"A system with leads is refused exactly if the hoppings whose phases are fixed by the leads close a loop through several leads; all others get their phases.",
"all systems with any number of leads, interfaces and paddings",
"The condition is a count of nodes, links and components of a graph of leads; tests try a few geometries.",
["kwant/physics/gauge.py:_check_composite_system,_interior_links,_spanning_tree_composite"])

p("C151","builder_to_model gives the Bloch Hamiltonian of the infinite system",
"For every builder with translational symmetry whose sites have norbs, and whose values depend on the free parameters in an affine way, the model evaluated at any momentum k and real parameters has the matrix elements sum over cells of exp(i k d) times the matrix element of the infinite system (with d the difference of positions, or of cells), so that the Hamiltonian of the builder applied to a Bloch wave is the model applied to its amplitudes; hoppings of the builder and their conjugates are each counted once; it fails exactly if a site has no norbs; for fewer periods than dimensions the projection keeps lengths and angles of periods and puts them in triangular form.",
"all builders, all momenta, all parameter values, all fixed parameters, real_space or not",
"Tests compare a few lattices at random momenta.",
["kwant/qsymm.py:builder_to_model"])

p("C152","model_to_builder gives a builder with the Hamiltonian of the model, and the way back gives the model",
"If model_to_builder accepts a model with a Hermitian Hamiltonian, the matrix element of the builder between any two sites of the infinite lattice is the Fourier component of the model at their displacement; converting the builder back gives a model with the same Hamiltonian at every momentum and for all real parameters (coefficients affine in the parameters), with orbitals in the order of sites of the builder.",
"all models with any number of terms and orbitals, all lattices and positions of atoms, all momenta and parameters",
"Hermitian conjugate terms are set one after the other on the same hopping and terms with the same displacement are accumulated; this must come out right for every set of terms.",
["kwant/qsymm.py:model_to_builder,builder_to_model"])

p("C153","model_to_builder accepts exactly the models on the given lattice",
"A model is converted exactly if every nonzero block of every term connects two sites of the lattice with the given positions.",
"all models, lattices, positions",
"Tests try a few models.",
["kwant/qsymm.py:model_to_builder"])

p("C154","phs_symmetrization returns particle-hole symmetric wave functions of the same space",
"For an orthonormal set of wave functions at a momentum k = -k and a unitary particle-hole operator P (an antiunitary symmetry), the returned wave functions are an orthonormal basis of the same space; if P^2 = 1 every one of them is an eigenstate of P, if P^2 = -1 their number is even and they come in consecutive pairs psi, P psi.  ValueError is raised exactly if the space is not closed under P or P^2 is neither 1 nor -1 on it.",
"all wave functions, all numbers of modes, all unitary particle-hole operators, every outcome of QR and Schur decompositions permitted by their contracts",
"The square root of a unitary matrix and the choice of pairs must work for every degeneracy of its eigenvalues; tests try random matrices, where degeneracies do not occur.",
["kwant/physics/leads.py:phs_symmetrization"])

p("C155","The square root in phs_symmetrization stays away from its branch cut",
"The phase that is chosen for the branch cut is at least pi divided by the number of modes away from every eigenvalue, so that the square root depends on the eigenvalues in a Lipschitz way with constant half the number of modes: equal or nearly equal eigenvalues get equal or nearly equal roots.",
"all numbers of modes, all eigenvalues on the unit circle",
"Needs a bound for all spectra, including those with eigenvalues on both sides of -1.",
["kwant/physics/leads.py:phs_symmetrization"])

p("C156","With time-reversal symmetry the outgoing modes are the time-reversed incoming modes",
"For a lead with time-reversal symmetry T, make_proper_modes returns proper modes (as in C109: solutions at the given momentum, orthogonal and with diagonal velocity operator at each momentum, complete, normalized to unit current, sorted), and the outgoing modes are T applied to the incoming ones, in the same order, with opposite velocity and momentum.  The symmetry does not change which errors are raised.",
"all leads with a time-reversal operator, all numbers of orbitals and modes, all outcomes of the numerical routines permitted by their contracts",
"The pairing relies on two sort orders being mirror images for every spectrum; tests use random Hamiltonians without degenerate momenta.",
["kwant/physics/leads.py:make_proper_modes,PropagatingModes"])

p("C157","With chiral symmetry the outgoing modes are the chiral partners of the incoming modes",
"For a lead with chiral symmetry C and no other symmetry, make_proper_modes returns proper modes (as in C109), and the wave functions of the outgoing modes are those of the incoming modes multiplied by C, with equal momentum and opposite velocity.  The symmetry does not lead to additional errors.",
"all leads with a chiral symmetry operator, all numbers of orbitals and modes, all outcomes of the numerical routines permitted by their contracts",
"The pairing relies on the order of velocities at each momentum for every spectrum; tests use random Hamiltonians without degenerate momenta.",
["kwant/physics/leads.py:make_proper_modes,PropagatingModes"])

p("C158","With particle-hole symmetry the modes are particle-hole partners",
"For a lead with particle-hole symmetry P and no other symmetry, make_proper_modes returns proper modes (as in C109): incoming modes at positive momenta k and at -k are partners, psi(-k) = P psi(k), in mirror positions, and the same for outgoing modes; at the momenta 0 and pi every mode satisfies P psi = psi if P^2 = 1, and the modes come in neighbouring pairs psi, P psi if P^2 = -1.  An assertion fails exactly if the number of modes at 0 or at pi is odd.",
"all leads with a particle-hole symmetry operator, all numbers of orbitals and modes, all outcomes of the numerical routines permitted by their contracts",
"The pairing by mirror positions relies on the order of all momenta and velocities for every spectrum; tests use random Hamiltonians without degenerate momenta.",
["kwant/physics/leads.py:make_proper_modes,phs_symmetrization","kwant/physics/symmetry.py:DiscreteSymmetry"])

p("C159","With time-reversal and particle-hole symmetry both relations hold",
"For a lead with time-reversal symmetry T and particle-hole symmetry P (and thus chiral symmetry), make_proper_modes returns proper modes; the outgoing modes are the time-reversed incoming ones (as in C156), the incoming modes are related by P (as in C158), and the outgoing modes are related by P in the same way.",
"all leads with time-reversal and particle-hole symmetry, all signs of P^2 and T^2 accepted by DiscreteSymmetry, all numbers of orbitals and modes, all outcomes of the numerical routines permitted by their contracts",
"The outgoing modes obtained by T inherit the relation by P only up to a sign that depends on the symmetry class; tests do not check all classes with all kinds of momenta.",
["kwant/physics/leads.py:make_proper_modes","kwant/physics/symmetry.py:DiscreteSymmetry"])

p("C160","Converting a real Schur form to a complex one keeps the matrix and the eigenvalues",
"For every real Schur form (t, q) that contains a 2x2 block, kwant.linalg.convert_r2c_schur returns complex (t2, q2) with t2 upper triangular, q2 unitary and q2 t2 q2^dagger = q t q^T; the diagonal of t2 is the list of eigenvalues of (t, q) in the same order, the one with positive imaginary part first.  Without a 2x2 block the input is returned unchanged.",
"all sizes, all real Schur forms in the canonical form of LAPACK, all orthogonal q",
"The rotations of the blocks must not disturb each other for any number and position of blocks; tests use random matrices.",
["kwant/linalg/decomp_schur.py:convert_r2c_schur"])

p("C161","order_schur moves the selected eigenvalues to the front",
"For every real Schur form (t, q) and every selection, kwant.linalg.order_schur(select, t, q) returns a Schur form of the same matrix, with its eigenvalues, in which exactly the selected eigenvalues come first, or raises LinAlgError; the first columns of the returned q span a subspace that the matrix maps to itself.  The result is complex exactly if one of a pair of complex conjugate eigenvalues is selected and the other is not.  If q is None the same holds for t.",
"all sizes, all real Schur forms, all selections, with and without q, all outcomes of LAPACK permitted by its documentation",
"Selections that separate some of many conjugate pairs take a different path (conversion to complex and recursion); tests try few.",
["kwant/linalg/decomp_schur.py:order_schur","kwant/linalg/lapack.pyx:trsen"])

p("C162","Converting a real generalized Schur form to a complex one keeps the pencil and the eigenvalues",
"For every real generalized Schur form (s, t) with a 2x2 block, and q, z given or None, kwant.linalg.convert_r2c_gen_schur raises LinAlgError or returns complex upper triangular (s2, t2) = VL^dagger (s, t) VR with unitary VL, VR and q2 = q VL, z2 = z VR for those given; the quotients of diagonal entries are the generalized eigenvalues of (s, t) in the same order, the one with positive imaginary part first.  Without a 2x2 block the input is returned unchanged.",
"all sizes, all real generalized Schur forms in the canonical form of LAPACK, q and z given or not, all outcomes of LAPACK permitted by its documentation",
"As C160; moreover the QZ algorithm may return the two eigenvalues of a block in either order.",
["kwant/linalg/decomp_schur.py:convert_r2c_gen_schur,order_gen_schur"])

p("C163","order_gen_schur moves the selected generalized eigenvalues to the front",
"For every real generalized Schur form (s, t, q, z), q and z each given or None, and every selection, kwant.linalg.order_gen_schur returns a generalized Schur form of the same pencil, with its eigenvalues alpha, beta, in which exactly the selected ones come first, or raises LinAlgError; the first columns of q and z span a pair of deflating subspaces.  The result is complex exactly if a pair of complex conjugate eigenvalues is separated.",
"all sizes, all real generalized Schur forms, all selections, q and z given or not, all outcomes of LAPACK permitted by its documentation",
"As C161.",
["kwant/linalg/decomp_schur.py:order_gen_schur","kwant/linalg/lapack.pyx:tgsen"])

p("C164","evecs_from_schur returns an eigenvector for each selected eigenvalue",
"For every real Schur form (t, q) and every selection (or None, for all), kwant.linalg.evecs_from_schur returns, in the order of the eigenvalues, exactly one left and one right eigenvector of q t q^T for each selected eigenvalue, also if only one of a complex conjugate pair is selected, and the consistency check on the number of columns never fails.",
"all sizes, all real Schur forms, all selections",
"Pairs occupy two columns in the storage of LAPACK whether one or both are selected; the index arithmetic must be right for every pattern of blocks and selections.",
["kwant/linalg/decomp_schur.py:evecs_from_schur","kwant/linalg/lapack.pyx:trevc,txevc_postprocess"])

p("C165","evecs_from_gen_schur returns a generalized eigenvector for each selected eigenvalue",
"For every real generalized Schur form (s, t, q, z) and every selection (or None), kwant.linalg.evecs_from_gen_schur returns, in the order of the eigenvalues, exactly one left and one right eigenvector of the pencil (q s z^T, q t z^T) for each selected eigenvalue alpha/beta, also if only one of a complex conjugate pair is selected, and the consistency check on the number of columns never fails.",
"all sizes, all real generalized Schur forms, all selections",
"As C164.",
["kwant/linalg/decomp_schur.py:evecs_from_gen_schur","kwant/linalg/lapack.pyx:tgevc,txevc_postprocess"])

p("C166","The analytical self-energy of the square lattice is the retarded one",
"For every width, every positive hopping t and every real energy, square_selfenergy(width, hopping, energy) is the retarded self-energy of the semi-infinite strip of the square lattice with onsite energies 4t and hoppings -t: at energy + i eta there is exactly one matrix F that propagates the solutions decaying into the lead from cell to cell, and the function returns the limit of -t F for eta -> 0+.  It satisfies Sigma (energy - H - Sigma) = t^2 with the cell Hamiltonian H.",
"all widths, hoppings and energies, inside and outside of the band and at its edges",
"A continuum of energies and all widths; the choice of the root must be right on all sides of the band edges.",
["kwant/physics/leads.py:square_selfenergy"])

p("C167", "Drawing a system with leads shows exactly its sites and the leading cells of its leads",
  "sys_leads_sites and sys_leads_pos, the functions from which kwant.plot takes the positions of the symbols, return for a non-empty system and num_lead_cells = n the position of every site of the system, each once, followed, for every builder lead with a non-empty interface, by the positions of exactly those sites of the lead that lie in the n unit cells next to its interface, each once; the slices returned cut the list of positions into the parts of the leads, in order and without gaps. Other leads contribute nothing. This holds for finalized systems with any leads and for builders all of whose leads are builder leads; in both forms the same sites are shown, although one works with sites and the other with numbers.",
  "every builder reached by any history of operations, every list of leads (with any translational symmetry and contents), every number of cells, before and after finalization",
  "Tests check the number of sites of a few plots; that numbering, interface cells, translation and slices fit together is a statement about all systems.",
  ["kwant/plotter.py:sys_leads_sites", "kwant/plotter.py:sys_leads_pos", "kwant/builder.py:FiniteSystem.pos", "kwant/builder.py:InfiniteSystem.pos"])
p("C168", "Drawing a system with leads shows exactly its hoppings and those of the leading cells of its leads",
  "sys_leads_hoppings and sys_leads_hopping_pos return for every system and num_lead_cells = n the pair of positions of the ends of every hopping of the system, each hopping once in one of its two directions, followed, for every builder lead with a non-empty interface, by those of exactly the hoppings of the lead that lie within the n unit cells next to its interface or connect them to cells before, again each once in one direction; the slices belong to the leads. This holds for finalized systems with any leads and for builders all of whose leads are builder leads, also if there is no hopping at all.",
  "every builder reached by any history of operations, every list of leads, every number of cells, before and after finalization",
  "Tests check the number of hoppings of a few plots.",
  ["kwant/plotter.py:sys_leads_hoppings", "kwant/plotter.py:sys_leads_hopping_pos"])

p("C169", "A solver context solves the linear system of the matrix it was last factored for",
  "For a kwant.linalg.mumps.MUMPSContext and every history of analyze, factor (with and without reuse_analysis) and solve calls, including calls that failed: solve(b) returns x with a x = b, column by column, where a is the matrix of the last factorization, for dense and sparse b alike, if that succeeded and no analysis was begun since; it raises RuntimeError if there is no such matrix and ValueError if b has the wrong number of rows.  Whatever was solved, analysed or refused before has no influence.",
  "all histories of calls, all matrices and right hand sides, all answers of the MUMPS library to analyses and factorizations",
  "The state of the context after a history (which matrix, which parameters of the library are still set from an earlier call) is what matters; tests use a new context and one kind of right hand side.",
  ["kwant/linalg/mumps.py:MUMPSContext.analyze", "kwant/linalg/mumps.py:MUMPSContext.factor", "kwant/linalg/mumps.py:MUMPSContext.solve", "kwant/linalg/_mumps.pyx:zmumps", "kwant/linalg/fortran_helpers.py:assert_fortran_matvec"])
p("C170", "A factorization always ends",
  "MUMPSContext.factor, which tries again with twice the memory whenever MUMPS reports that the memory was not sufficient, ends after at most 31 attempts, whatever MUMPS answers and whatever was done with the context before; it either has factored the given matrix or raises an exception, and a MUMPSError never reports lack of memory.",
  "all histories of calls, all sequences of answers of the library",
  "The loop has no bound in the code; that it ends follows from the limit of C integers.",
  ["kwant/linalg/mumps.py:MUMPSContext.factor"])
p("C171", "Solver options can be saved and restored",
  "For every sequence of calls of options and reset_options, also failing ones, options(...) of the MUMPS solver returns the options as they were before the call, passing them to options restores all of them exactly and returns those in between, and reset_options restores the options of a new solver.",
  "all installations of MUMPS, all sequences of calls",
  "Histories of calls with any arguments; the ordering 'kwant_decides' is resolved when it is set.",
  ["kwant/solvers/mumps.py:Solver.options", "kwant/solvers/mumps.py:Solver.reset_options"])
p("C172", "Invalid solver options are refused and change nothing",
  "options of the MUMPS solver raises ValueError exactly if nrhs is not a positive integer or the ordering is neither 'kwant_decides' nor known; then no option is changed.",
  "all values of all options, all states of the solver",
  "All numbers; combinations of valid and invalid options.",
  ["kwant/solvers/mumps.py:Solver.options"])
p("C173", "Performance options of the solver do not influence results",
  "For every factorization of a square matrix a, every number of right hand sides and all values of the options nrhs and sparse_rhs, the solver's solution of linear systems returns the selected rows of the solutions of all right hand sides, in order, and this any number of times with the same factorization, with options changed in between.",
  "all matrices, right hand sides, selections of rows, values of nrhs and sparse_rhs, numbers of uses",
  "The right hand sides are cut in groups of nrhs; all numbers and remainders; a factorization kept by wave_function is used again after options were changed.",
  ["kwant/solvers/mumps.py:Solver._solve_linear_sys", "kwant/linalg/mumps.py:MUMPSContext.solve"])

p("C174", "spectrum draws the energies of the Hamiltonian over the grid",
  "kwant.plotter.spectrum(syst, x, y, params, mask), with both plotting engines, draws for each energy index m one curve (or, with y, one surface) over all grid points: at a point that is not masked its height is the m-th eigenvalue of the Hamiltonian whose parameters are the grid values and otherwise those of params; masked points are gaps.  It succeeds exactly if some point is not masked and the Hamiltonian has the same size at all those points.",
  "all Hamiltonians, grids of any size, params, masks, both engines",
  "The energies pass through a flat list, a reshape, transpositions and meshgrid, in different ways for the two engines; index mix-ups only show for non-square grids.",
  ["kwant/plotter.py:spectrum,_generate_spectrum,_spectrum_matplotlib,_spectrum_plotly"])
p("C175", "bands draws the Bloch energies",
  "kwant.plotter.bands draws, for each orbital of the unit cell, one curve over the given momenta (an equidistant grid from -pi to pi if a number is given); at each momentum the heights of the curves are the energies of the Bloch waves of the infinite system, ascending and with multiplicities, and the same that kwant.physics.Bands returns.  It raises an exception exactly if the cell Hamiltonian is not Hermitian or there is no momentum.",
  "all infinite systems and momenta",
  "The function has its own copy of the Bloch Hamiltonian.",
  ["kwant/plotter.py:bands", "kwant/physics/dispersion.py:Bands"])
p("C176", "Pixels of a map correspond to sites",
  "mask_interpolate, with which kwant.plotter.map makes its picture: for systems on a square (cubic, ...) lattice with the lattice spacing as reference length and odd oversampling, each site lies exactly at the position of one pixel, which is not masked and has the value of the site; with oversampling 1 the pixels that are not masked correspond one to one to the sites.  For all systems, pixels that are shown are within 0.99 reference lengths of a site, and the returned min and max are the positions of the first and last pixel.",
  "all finite sets of sites in any dimension, all values, reference lengths and odd oversamplings, all interpolation methods",
  "Boundaries: rounding of the number of pixels, half pixel shifts, all extents.",
  ["kwant/plotter.py:mask_interpolate,map"])
p("C177", "Maps draw each pixel at its position",
  "kwant.plotter.map draws the pixels of the interpolated picture with their centers at the positions at which the value was interpolated, with both plotting engines.",
  "all numbers of pixels in both directions, both engines",
  "Pictures that are not square, one pixel wide, or drawn with the other engine.",
  ["kwant/plotter.py:_map_matplotlib,_map_plotly"])
p("C178", "The default color range of maps covers the documented part of the data",
  "percentile_bound(data, vmin, vmax, percentile), which fixes the color range of map, returns a range within that of the data that contains at least the given percentage of the data; a bound given by the user is returned as it is.",
  "all data, percentages and stretch factors",
  "All numbers of data; percentiles are interpolated between data.",
  ["kwant/plotter.py:percentile_bound"])
p("C179", "Site families and sites are identified and ordered by their data",
  "Two Monatomic lattices compare equal if and only if they have the same class, primitive vectors, offset, name and number of orbitals; equal families have equal hashes and positions; the order of families and of sites is a strict total order consistent with equality.",
  "all classes, vectors, offsets, names (with any characters) and numbers of orbitals, all sites",
  "Identity is decided by comparing texts that are assembled from user-given names and numbers of any length; one must exclude that two different lattices are written in the same way.",
  ["kwant/builder.py:SiteFamily,Site", "kwant/lattice.py:Monatomic.__init__,short_array_repr"])
p("C180", "A polyatomic lattice has one sublattice for each site of its basis",
  "Polyatomic(prim_vecs, basis, name, norbs) has as many sublattices as the basis has sites; sublattice k has the primitive vectors of the lattice, basis vector k as offset, the documented name and the given number of orbitals; the sublattices are different families, so that no site belongs to two of them.",
  "all vectors, bases, names and numbers of orbitals",
  "All numbers of sublattices, names and numbers of digits.",
  ["kwant/lattice.py:Polyatomic.__init__"])
p("C181", "lambdify evaluates a continuum Hamiltonian",
  "continuum.lambdify(expr) returns a function whose parameters are the names that occur in the expression, in alphabetical order, and which returns the value of the expression for these arguments.",
  "all expressions and arguments",
  "All expressions, of any depth.",
  ["kwant/continuum/_common.py:lambdify"])
p("C182", "Linear algebra wrappers leave the caller's arrays alone unless asked",
  "The arrays that the Schur, generalized Schur and MUMPS wrappers pass to Fortran have the shape and the elements of the arguments, are Fortran contiguous and of the common data type; with overwrite=False nothing that Fortran does with them changes an array of the caller; with overwrite=True only arrays that share memory with an argument can change.",
  "all arguments (arrays with any strides and sharing of memory, lists, None), all data types, everything Fortran may write",
  "All layouts, data types and patterns of shared memory.",
  ["kwant/linalg/lapack.pyx:prepare_for_lapack", "kwant/linalg/fortran_helpers.py:prepare_for_fortran"])

p("C183", "add_peierls_phase multiplies every hopping with its phase and changes nothing else",
  "add_peierls_phase succeeds exactly if all leads are BuilderLeads, the Peierls parameter (and its lead variants) is a proper name that no value function of a hopping uses already, and the parameters of these functions can be determined. The returned system has the same sites in the same order; values of sites are unchanged; the hopping (a, b) as it was given to the builder is multiplied with phi(a, b), and the opposite one with its conjugate, so that for a hermitian phase every matrix element between different sites is multiplied with phi(a, b); the same holds for every lead with the parameter phi_lead{i}, and for infinite systems. The parameters of the system are the old ones and phi, and the gauge returns a dictionary that maps these names to the phases of the system and the leads. Time reversal symmetry is removed.",
  "all builders (any history), constants and value functions, parameters, phases, lists of leads",
  "All builders, directions in which hoppings were given, and phases.",
  ["kwant/builder.py:add_peierls_phase", "kwant/builder.py:_add_peierls_phase"])
p("C184", "The discrete symmetries of a system with Peierls phases hold for its Hamiltonian",
  "If the Hamiltonian of a system has the conservation law, particle-hole and chiral symmetry declared for it, then so has, for all (hermitian) phases, the Hamiltonian of the system returned by add_peierls_phase, to which these declarations are copied.",
  "all builders, symmetries, phases",
  "All Hamiltonians and phases.",
  ["kwant/builder.py:_add_peierls_phase"])

p("C185", "A conservation law block-diagonalizes the Hamiltonian, in ascending order of its eigenvalues",
  "For a builder with a Hermitian onsite conservation law (a constant, a dictionary or a function), discrete_symmetry() of the finalized system raises 'Conservation law must have integer eigenvalues' exactly if an eigenvalue of the operator differs from the nearest integer by more than the tolerance of numpy.allclose, and otherwise returns projectors, one for each (rounded) eigenvalue in ascending order, whose columns are eigenvectors and together form an orthonormal basis; DiscreteSymmetry accepts them; a Hamiltonian that commutes with the law has no matrix elements between different blocks.  If all eigenvalues are integers, the blocks are exactly the eigenspaces.",
  "all systems with any numbers of orbitals, all Hermitian conservation laws of all three formats, all commuting Hamiltonians",
  "All operators on all systems; the grouping of degenerate eigenvalues across sites and the shift by 0.5 that keeps zero eigenvalues are only exercised by a few examples.",
  ["kwant/builder.py:_translate_cons_law,_FinalizedBuilderMixin.discrete_symmetry", "kwant/physics/symmetry.py:DiscreteSymmetry.__init__"])

p("C186", "Builder.closest returns the site closest to a position, taking the symmetry into account",
  "Builder.closest(pos) of a builder with a translational symmetry returns an image under the symmetry of a site of the builder such that no image of any site of the builder is closer to pos; without a symmetry it returns a site of the builder that no other site of it is closer than, and None if the builder has no sites.  A site without a position raises AttributeError, and an empty builder with a symmetry StopIteration.",
  "all builders (any symmetry with linearly independent periods, any families of sites), all positions",
  "All lattices, periods and positions; skewed periods need the lattice reduction, and the lattice reduction and the search must terminate.",
  ["kwant/builder.py:Builder.closest", "kwant/linalg/lll.py:lll,cvp"])

p("C187", "plot_2d_bands plots the energies of the system at each momentum, over the first Brillouin zone",
  "plot_2d_bands refuses everything but a finalized, completely wrapped-around system with a two-dimensional symmetry of the plane.  At the point k of the plot it shows the eigenvalues of the Hamiltonian whose hoppings have the phase exp(i k.R) of the translation R they cross, with all other parameters as given.  By default the points form an equally spaced grid on a box that contains the first Brillouin zone (the smallest such box), extended by the requested proportion; with mask_brillouin_zone=True exactly the points inside of the first Brillouin zone are plotted.",
  "all periods, systems, parameters, grids",
  "All lattices; the neighbors of the origin in the reciprocal lattice are found by lattice reduction, and which basis this ends with depends on the periods.",
  ["kwant/wraparound.py:plot_2d_bands", "kwant/linalg/lll.py:lll,voronoi"])

p("C188", "Symmetries relate the transmissions of a system, and of a system with reversed magnetic field",
  "If a time-reversal symmetry (antiunitary) or a chiral symmetry (at the opposite energy) maps the Hamiltonian of a system with leads to that of another one on the same orbitals, then transmission(l, k) of the one equals transmission(k, l) of the other; if the symmetry is unitary, or a particle-hole symmetry (at the opposite energy), then transmission(l, k) is the same for both.  The numbers of modes of all leads agree, and the blocks of the scattering matrices are related by unitary matrices, one for the incoming and one for the outgoing modes of each lead.  In particular (Onsager) transmission(l, k) in a magnetic field B equals transmission(k, l) in the field -B, whatever the gauge and the symmetries declared for the leads, and transmission(l, k) = transmission(k, l) if the Hamiltonian is real.",
  "all systems, leads, energies, symmetries, bases of modes that modes() may return",
  "All Hamiltonians and symmetries.",
  ["kwant/solvers/common.py:SMatrix.transmission,SparseSolver.smatrix", "kwant/physics/leads.py:modes"])

p("C189", "Symmetries of the scattering matrix in the basis of modes that respects them",
  "The outgoing amplitudes of every wave are the scattering matrix times the incoming ones.  If the outgoing modes of all leads are the time-reversed incoming ones, the scattering matrix is symmetric for T^2 = 1 and antisymmetric for T^2 = -1.  If they are the chiral partners, it is Hermitian at zero energy.  If particle-hole symmetry maps each mode to a mode, the elements of the scattering matrix at zero energy between partners are complex conjugates, up to the signs of the partners; it is real if all modes are their own partners.",
  "all systems, leads, symmetries, energies",
  "All Hamiltonians and symmetries.",
  ["kwant/solvers/common.py:SparseSolver.smatrix", "kwant/physics/leads.py:make_proper_modes,modes"])

p("C190", "Conservation laws block-diagonalize the scattering matrix",
  "If a Hermitian operator commutes with the Hamiltonian of the scattering region and of the leads, all elements of the scattering matrix between modes with different values of it are zero.  If the leads have been given projectors to its eigenspaces, smatrix.transmission((l, x), (k, y)) is zero whenever block x of lead l and block y of lead k have different values of the conserved quantity.",
  "all systems, leads, conserved quantities, energies, choices of leads and blocks",
  "All Hamiltonians and conserved quantities.",
  ["kwant/solvers/common.py:SparseSolver.smatrix,SMatrix.transmission,SMatrix.out_block_coords,SMatrix.in_block_coords", "kwant/physics/leads.py:modes"])

p("C191", "Adding cells of a lead to the scattering region does not change the transmissions",
  "If the first cell of a lead is made a part of the scattering region and the rest of the lead is attached to it (as with add_cells of attach_lead), the elements of the scattering matrix are multiplied with the phases the modes of this lead acquire in one cell, and nothing else changes; the transmissions are the same.  This holds for any number of cells of any leads.  There is a bound state at some energy in one system if and only if there is one in the other.",
  "all systems, leads, numbers of cells, energies",
  "All Hamiltonians, any number of cells.",
  ["kwant/solvers/common.py:SparseSolver.smatrix", "kwant/builder.py:Builder.attach_lead"])
p("C192", "The scattering matrix does not depend on the order of the sites",
  "If the sites of the scattering region are numbered differently (and the Hamiltonian and the interfaces of the leads accordingly), the scattering matrix is the same, and so are the energies of bound states.",
  "all systems, permutations of the sites, leads, energies",
  "All Hamiltonians and permutations.",
  ["kwant/solvers/common.py:SparseSolver.smatrix", "kwant/builder.py:FiniteSystem"])

p("C193", "The value functions of a discretized model evaluate its symbolic Hamiltonian",
  "What discretize puts into the builder for an onsite or hopping term is the value of the symbolic expression: for every expression or matrix of expressions with parameters and functions (also nested ones), called for any sites and with any parameters, the generated function returns what the expression evaluates to if coordinates are those of the (first) site, a_x is the lattice spacing and all other names are the parameters.  Its parameters are exactly the names of the symbols and functions, sorted; it is a constant exactly if there are none; invalid names are refused.  A value is made of every scalar expression; of a matrix it is made exactly if powers have symbols, functions or numbers as base.  Names that the generated code uses itself (_const_n, _cache_n, site, functions named like coordinates) are excepted: they give wrong values or errors.",
  "all expressions, coordinates, spacings, positions, parameter values (also functions), orders in which the applied functions are enumerated",
  "All expressions and all values; sets are enumerated in an order that changes from run to run.",
  ["kwant/continuum/discretizer.py:_builder_value,_return_string,_assign_symbols", "kwant/continuum/_common.py:monomials,_expression_monomials"])

p("C194", "The current is conserved for each value of a conserved quantity",
  "If a Hermitian operator commutes with the Hamiltonian of the scattering region and of the leads, and the leads have been given projectors to its eigenspaces, then for a scattering matrix with all leads the transmissions smatrix.transmission((l, x), (k, y)) from block y of lead k into all those blocks (l, x) that have the same value of the conserved quantity add up to the number of modes of the block y, block_nmodes[y]; and so do, for a given block (l, x), the transmissions from all blocks with its value.",
  "all systems, leads, conserved quantities, energies, blocks",
  "All Hamiltonians and conserved quantities.",
  ["kwant/solvers/common.py:SparseSolver.smatrix,SMatrix.transmission,SMatrix.out_block_coords,SMatrix.in_block_coords", "kwant/physics/leads.py:modes"])

p("C195", "The functions of SelfEnergyLead and ModesLead are called with the arguments of the caller",
  "Whatever the signature of the function, lead.selfenergy(energy, args, params=params) (and modes) makes the call f(energy, args, params=params) if the function accepts it, and returns its result; a function without params and **kwargs (old API) is called as f(energy, args); all other functions raise TypeError.  energy by keyword and omitted args and params are treated as the defaults () and None.  The methods of a lead can again be used for another lead.  The self-energy of a ModesLead is that of its stabilized modes.  deprecate_parameter changes no results and no errors of the decorated function, and warns exactly if the parameter is given and truthy.",
  "all signatures, functions and arguments (positional, keyword)",
  "All signatures of user functions.",
  ["kwant/builder.py:_ensure_signature,SelfEnergyLead,ModesLead", "kwant/_common.py:deprecate_parameter,deprecate_args"])

p("C196", "schur_complement returns the Schur complement",
  "For every square complex sparse matrix (any format, duplicate entries add up) and every list of distinct indices for which MUMPS succeeds, kwant.linalg.mumps.schur_complement(a, indices) is A_II - A_IJ A_JJ^-1 A_JI, with rows and columns in the order of indices; its inverse is the block of the inverse matrix.  Exactly for arguments that are no square sparse matrix, indices that are no 1d array, unknown orderings and real matrices an exception is raised.",
  "all sizes, matrices, index lists, orderings",
  "All matrices; answers of the library that tests do not provoke.",
  ["kwant/linalg/mumps.py:schur_complement,_make_assembled_from_coo,_make_mumps_index_array", "kwant/linalg/_mumps.pyx:zmumps.set_schur"])

p("C197", "The scattering matrix does not depend on the gauge and the local basis",
  "If each orbital of the scattering region gets a phase (a gauge transformation), or more generally if the orbitals are replaced by other orthonormal ones, in such a way that at the interface of each lead there is only one common phase, then the elements of the scattering matrix get the phases of the two leads, and nothing else changes: all transmissions are the same, and so are the energies of bound states; under a gauge transformation also the densities of all scattering states (wave_function).",
  "all systems, leads, energies, unitary transformations",
  "All Hamiltonians and gauges.",
  ["kwant/solvers/common.py:SparseSolver.smatrix,SparseSolver.wave_function"])

p("C198", "plot draws every site with its own symbol, size and colour",
  "For every system and every site_symbol, site_size, site_color, site_edgecolor and site_lw given as None, as a single value that is no tuple (for finalized systems also a polygon as symbol), as a function or (not for builders) as an array of one value per site, the figure made by kwant.plot with matplotlib contains each site of the system exactly once, with the symbol, size, colour, edge colour and line width given for this site, however the sites are spread over the symbols; the sites without symbol and those of size zero are not visible.  Numbers as colours are mapped with the smallest and the largest number of all the sites.  Without site_color, sites have the same colour exactly if they are of the same family (as long as the colour cycle has enough colours).  A documented tuple for all the sites (a polygon as symbol, an RGB colour) is refused for builders; for finalized systems an RGB tuple is taken for a list of numbers.",
  "all systems, arguments of the five kinds, symbols, 2d and 3d",
  "All combinations of arguments and partitions of the sites; the tests of the plotter only check that nothing raises.",
  ["kwant/plotter.py:_plot_matplotlib,_check_length,_make_proper_site_spec,set_colors,get_symbol,symbols,_color_cycle"])

p("C199", "plot draws every hopping once, and the leads fading out",
  "In the figure made by kwant.plot with matplotlib every hopping of the system appears exactly once, with the colour and width that hop_color and hop_lw (None, a single value that is no tuple, or a function) give for it; numbers as colours are mapped with the range of the numbers of all the hoppings.  Every site and every hopping of the num_lead_cells plotted cells of each lead appears exactly once, with the symbol, size, edge colour and widths of the leads and with a colour that fades strictly from lead_color to white with the distance from the system.  A property of leads that is not given is that of the sites if this is a single value, the default otherwise (exception: a polygon is not passed on).  Lines of width zero are not seen.  If the leads have no symbol ('no symbol'), plot fails.",
  "all systems, leads, numbers of cells and arguments of the documented kinds",
  "All arguments and numbers of sites, hoppings and cells; the tests of the plotter only check that nothing raises.",
  ["kwant/plotter.py:_plot_matplotlib,_make_proper_hop_spec,lines,symbols,set_colors"])

p("C200", "The unit of symbol sizes in plot is the shortest hopping",
  "For a system with hoppings and unit='nn', kwant.plot measures symbol sizes and line widths in units of the length of one of the plotted hoppings (of the system and the leads, after pos_transform): the shortest one among those that are at least 1e-8 times as long as the longest one.  It is zero only if all hoppings have length zero, and does not depend on where the system lies.  unit='pt' gives points, a number gives this number, anything else ValueError.  (Without hoppings, the documented typical nearest neighbor distance is not what is used: the sampled points are transposed before being reshaped, so that the unit depends on the origin of the coordinates, and it is zero for a single site.)",
  "all positions, hoppings, units, 2d and 3d",
  "All geometries; the outcome is a scale in a figure, which the tests do not look at.",
  ["kwant/plotter.py:_plot_matplotlib,_sample_array"])

p("C201", "The SciPy solver solves the scattering problem",
  "With the solver of kwant.solvers.sparse (the default one if MUMPS is missing), for every system for which the factorization succeeds: smatrix has one row per outgoing mode of the requested leads and one column per incoming mode, and its elements are the amplitudes of the scattering states (if no lead has zero hopping, or all leads are requested); greens_function returns the elements of the inverse of E - H - Sigma between the orbitals of the interfaces of the requested leads; wave_function returns the scattering states of the incoming modes of the lead; ldos is the sum of their squared moduli divided by 2 pi.  All the right-hand sides are solved in one buffer, whose earlier contents never matter.  The array returned by smatrix for all leads of a Hermitian system is unitary.  If the matrix is singular, an exception is raised.",
  "all systems, leads, energies, lists of leads, numbers of right-hand sides, and all factorizations that satisfy the contract",
  "Whether the right columns and variables are selected for all combinations of leads.",
  ["kwant/solvers/sparse.py:Solver._factorized,_solve_linear_sys", "kwant/solvers/common.py:SparseSolver.smatrix,greens_function,ldos,WaveFunction"])

p("C202", "Stream lines have width and intensity proportional to the flow",
  "In kwant.plotter.streamplot (and current) no line is thinner than min_linewidth, width times intensity of the lines is max_linewidth times speed / vmax everywhere, and no line is thicker than max_linewidth if vmax is not given; the colours of thin lines are mixed with the background linearly in light, exactly between the two colours (all 8-bit colours are hit exactly); every vector is drawn at its sample point; the pixels of the image behind (and of scalarplot) are at most half a pixel away from their sample points.  They are not at these points, and the option bgcolor never works with the versions of matplotlib that kwant supports: counterexamples.",
  "all fields, speeds, widths, colours, sizes, boxes",
  "All speeds and colours; figures are not compared by tests.",
  ["kwant/plotter.py:streamplot,_streamplot_matplotlib,_linear_cmap,_gamma_compress,_gamma_expand,_scalarplot_matplotlib"])

p("C203", "Figures are output once and returned",
  "With matplotlib and without ax, plot, map, bands, spectrum, scalarplot and density save the figure exactly once if a file is given, otherwise show it exactly once unless show is false, and return it; with ax they output nothing and return None.  With plotly the figure is saved and shown as requested and returned, unsupported arguments are refused before anything is output, and showing outside of IPython is refused.  Without an engine every function raises.  set_engine accepts exactly the available engines.  streamplot and current output the figure twice and never return it: counterexample.",
  "all functions, engines, states of the module, and combinations of file, show, ax, dpi, fig_size",
  "All combinations of options; tests do not count outputs.",
  ["kwant/plotter.py:set_engine,get_engine,_make_figure,_maybe_output_fig,_check_incompatible_args_plotly,plot,map,bands,spectrum,streamplot,scalarplot,current,density"])

p("C204", "Weights of links in the gauge are assembled and copied exactly",
  "The sparse-matrix bookkeeping of the magnetic gauge: matrices of links given in pieces are added, a shift by the number of sites moves all elements along the diagonal and leaves the rest zero, the matrix of distances has the length of each link at its element and zero elsewhere; the comparison of structures decides whether the same elements are stored; and copying an element from a matrix of the same structure changes exactly this element to the value of the other matrix, keeps all others and the structure, and refuses elements that are not stored.  It relies on sorted matrices (which the conversion guarantees): for an unsorted matrix with the same elements, another value would be copied.",
  "all matrices in canonical CSR format, all COO matrices, elements, links, shifts",
  "All sparsity structures; a wrong position would only change the order in which loops are found.",
  ["kwant/physics/gauge.py:_assign_csr,_same_sparsity_structure,_add_coo_matrices,_shift_diagonally,_distance_matrix"])

p("C205", "Scalar plots with plotly draw values at their sample points",
  "kwant.plotter.scalarplot with the engine plotly draws every value of the field at its sample point (the points of the field are equidistant in the box, the ends included), and the range of colours is vmin and vmax, by default exactly the smallest and the largest value.  The positions are right only for fields with as many points in x as in y: otherwise every point except for those at the lower left edges is drawn at a wrong place or has no coordinate (counterexample), because the numbers of points are taken from the transposed field.",
  "all fields, boxes, limits",
  "All shapes; the tests do not look at figures.",
  ["kwant/plotter.py:scalarplot,_scalarplot_plotly"])

if __name__=="__main__":
    open(__import__("os").path.join(__import__("os").path.dirname(__import__("os").path.abspath(__file__)),"..","properties.jsonl"),"w").write("".join(json.dumps(x)+"\n" for x in P))
    print(len(P))

{"id": "C01", "title": "Frequency keys form an abelian group under + and -", "statement": "For frequency keys whose stored multiplicities are all nonzero, k1+k2, k1-k2 and -k again have only nonzero multiplicities, and under == they obey the abelian group laws: k1+k2 == k2+k1, (k1+k2)+k3 == k1+(k2+k3), k+DC == k, k+(-k) == DC, (k1+k2)-k2 == k1.", "quantifier": "all frequency objects, all finite dictionaries of nonzero integer multiplicities, all finite sequences of additions, subtractions and negations", "why_tests_cant": "the entry deletion on cancellation must be right for every overlap pattern of two dictionaries and at every intermediate result of a chain of operations; tests only try a handful of overlaps", "anchors": ["phasor/base/dictionary_keys.py: FrequencyKey.__add__, __sub__, __neg__, __eq__"]}
{"id": "C02", "title": "Frequency of a combination is the combination of frequencies", "statement": "frequency() of k1+k2, k1-k2, -k and n*k equals f(k1)+f(k2), f(k1)-f(k2), -f(k), n*f(k), where f sums multiplicity times the frequency of each frequency object; this holds whatever the stored multiplicities are.", "quantifier": "all keys (zero entries allowed), all integer factors, all assignments of real frequencies to frequency objects", "why_tests_cant": "holds for every assignment of frequencies and every dictionary, including ones where entries are deleted or missing", "anchors": ["phasor/base/dictionary_keys.py: FrequencyKey.frequency, __add__, __sub__, __neg__, __rmul__"]}
{"id": "C03", "title": "Equal frequency combinations are equal keys", "statement": "Two frequency keys denoting the same integer combination compare equal, and DC_is() is true exactly for the zero combination.", "quantifier": "all keys reachable from literal keys by +, -, unary minus and integer multiplication", "why_tests_cant": "depends on which history of operations produced the key: a key scaled by zero keeps zero entries while a key cancelled by subtraction does not", "anchors": ["phasor/base/dictionary_keys.py: FrequencyKey.__eq__, DC_is, __rmul__"]}
{"id": "C04", "title": "Equal keys have equal hashes", "statement": "If two DictKeys (or two FrequencyKeys) compare equal then they hash equal, whatever the insertion order of the underlying dictionaries, so dictionaries keyed by them never lose an entry.", "quantifier": "all pairs of keys, all insertion orders", "why_tests_cant": "python dictionaries expose insertion order; the hash must be invariant under every permutation of the items", "anchors": ["phasor/base/dictionary_keys.py: DictKey.__hash__, DictKey.__eq__, FrequencyKey.__hash__, FrequencyKey.__eq__"]}
{"id": "C05", "title": "DictKey union, intersection and containment behave like partial maps", "statement": "k1|k2 maps each name to k2's value if k2 has it and else to k1's; k1&k2 holds exactly the name/value pairs in both; contains(k2) is true exactly when every name/value pair of k2 is in k1; hence (k1|k2).contains(k2), k1.contains(k1&k2), contains is a partial order up to ==, and k1&k2 == k2&k1.", "quantifier": "all pairs and triples of keys over arbitrary names and values", "why_tests_cant": "the implementation branches on which key is smaller; the law must hold on all branches for all contents", "anchors": ["phasor/base/dictionary_keys.py: DictKey.__or__, __and__, contains, kv_contains"]}
{"id": "C06", "title": "Removing and replacing key fields loses nothing else", "statement": "k - s succeeds exactly when s's pairs are all in k, and then (k - s) | s == k and k - s has none of s's names; without_keys succeeds exactly when every named field is present (and listed once) and removes just those; purge_keys removes just the named fields without failing; replace_keys keeps all unnamed fields and the last listed replacement wins.", "quantifier": "all keys and all argument lists, including missing names and conflicting values (error cases)", "why_tests_cant": "needs every combination of missing, repeated and conflicting names including the error branches", "anchors": ["phasor/base/dictionary_keys.py: DictKey.__sub__, without_keys, purge_keys, replace_keys"]}
{"id": "C07", "title": "Sorting keys gives a canonical order", "statement": "The < operator on DictKeys is a strict total order consistent with ==, so sorting a list of distinct keys gives the same result whatever the starting order.", "quantifier": "all pairs of keys", "why_tests_cant": "trichotomy quantifies over all pairs of distinct keys", "anchors": ["phasor/base/dictionary_keys.py: DictKey.__lt__"]}
{"id": "C08", "title": "The priority queue behaves as a multiset with minimum removal", "statement": "For every history of construction, push, pop, replace, pushpop and peek, the queue's content equals the abstract multiset: pop returns and removes a least element and raises Empty exactly when the multiset is empty, peek returns a least element, pushpop(x) returns the least of contents plus x, replace returns the old least; nothing is lost or duplicated.", "quantifier": "all element types with a total preorder, all initial lists, all finite operation histories", "why_tests_cant": "the heap invariant must survive every history; bugs appear only for particular tree shapes", "anchors": ["phasor/utilities/priority_queue/heap_priority_queue.py: HeapPriorityQueue"]}
{"id": "C09", "title": "Draining the queue sorts", "statement": "Building a queue from any list and popping until Empty yields a sorted permutation of the list.", "quantifier": "all finite lists", "why_tests_cant": "all lengths and all orders including ties", "anchors": ["phasor/utilities/priority_queue/heap_priority_queue.py: HeapPriorityQueue.__init__, pop"]}
{"id": "C10", "title": "The thread safe queue offers the same operations", "statement": "Every operation of the thread safe queue returns the same result as the plain queue on the same history.", "quantifier": "all operation histories", "why_tests_cant": "one operation of the API fails on every input; a suite that never calls it never notices", "anchors": ["phasor/utilities/priority_queue/heap_priority_queue.py: HeapPriorityQueueThreadsafe.pushpop"]}
{"id": "C11", "title": "Eliminating one node keeps every solution", "statement": "Reducing a node of the signal-flow graph whose self loop gain is not 1 (closing the loop with gain 1/(1-self) and rerouting every in-edge/out-edge pair) keeps the remaining nodes' equations: every assignment solving the old graph solves the new one on the remaining nodes, and every solution of the new one extends uniquely to the old one.", "quantifier": "all finite graphs, all edge gains in any field, all nodes with self gain different from 1", "why_tests_cant": "all graph shapes and gains; one missed rerouting branch (existing edge, new edge, self loop created on a neighbour) breaks only some shapes", "anchors": ["phasor/matrix/graph_algorithm.py: reduce_node / mgraph_simplify_inplace"]}
{"id": "C12", "title": "The graph solver returns the solution of the linear system for every elimination order", "statement": "Whenever the 'loop_fast_unstable' solver finishes, x = M x + source has a solution in which nodes that no source or input drives are at rest, every such solution has the returned values at the requested outputs (0 where absent, times -1 with 'negative'), and when 1-M is invertible these are the values of (1-M)^-1 source; this holds whichever order nodes are eliminated in. With both purges on, a division by zero is the only way to fail. (Without 'undriven nodes at rest' the claim is false of the code: an undriven loop of gain 1 can hold any value.)", "quantifier": "all finite sparse matrices, sources, output sets and elimination orders", "why_tests_cant": "elimination order depends on costs and hash order; the result must not", "anchors": ["phasor/matrix/graph_algorithm.py: mgraph_simplify_inplace, inverse_solve_inplace"]}
{"id": "C13", "title": "The inverse returned by the graph solver is the transfer matrix", "statement": "The edge map returned for inputs_set/outputs_set is the transfer matrix: driving input i with unit source (undriven nodes at rest) gives output o equal to edge_map[i,o] (0 if absent); when 1-M is invertible it is the corresponding block of (1-M)^-1.", "quantifier": "all finite sparse matrices, input and output sets", "why_tests_cant": "every subset of inputs and outputs, including nodes that are both", "anchors": ["phasor/matrix/graph_algorithm.py: inverse_solve_inplace"]}
{"id": "C14", "title": "Results do not depend on the elimination order", "statement": "Two runs of the solver on the same system that eliminate nodes in different orders, and both finish, return the same outputs.", "quantifier": "all pairs of elimination orders", "why_tests_cant": "factorially many orders; the implementation's order follows hash values", "anchors": ["phasor/matrix/graph_algorithm.py: mgraph_simplify_inplace"]}
{"id": "C15", "title": "Purging unreachable nodes never changes the outputs", "statement": "Removing nodes that no input can reach, and nodes from which no output can be reached, leaves the value computed for every requested output unchanged.", "quantifier": "all graphs, start sets and except sets", "why_tests_cant": "reachability over arbitrary graphs with cycles", "anchors": ["phasor/matrix/matrix_generic.py: color_purge_inplace, purge_reqless_inplace, purge_seqless_inplace, purge_subgraph_inplace"]}
{"id": "C16", "title": "Coloring keeps exactly the reachable nodes", "statement": "color_purge keeps exactly the nodes reachable from the start set along the given edge direction and removes every other listed node together with its edges.", "quantifier": "all finite graphs and start sets", "why_tests_cant": "worklist must terminate and be complete for every cyclic graph and visiting order", "anchors": ["phasor/matrix/matrix_generic.py: color_purge_inplace"]}
{"id": "C17", "title": "Forward and backward adjacency stay mirror images", "statement": "Starting from a balanced pair of successor and predecessor maps, pre-purging, purging and node elimination keep them balanced: b is a successor of a exactly when a is a predecessor of b, and each such pair has an edge value.", "quantifier": "all graphs and all sequences of these operations", "why_tests_cant": "invariant over all operation sequences", "anchors": ["phasor/matrix/matrix_generic.py: check_seq_req_balance, pre_purge_inplace, purge_subgraph_inplace", "phasor/matrix/graph_algorithm.py: mgraph_simplify_inplace"]}
{"id": "C18", "title": "One LU reduction step of the default solver keeps every solution", "statement": "Reducing a node with nonzero diagonal by CLG=-1/diagonal over all its in and out edges (including input and output edges) keeps every solution of the remaining system A x + alpha = 0 and every output, and the new system determines the old one.", "quantifier": "all finite systems over any field, all nodes with nonzero diagonal", "why_tests_cant": "all shapes and values", "anchors": ["phasor/matrix/DAG_algorithm_impl.py: reduceLU"]}
{"id": "C19", "title": "Column and row pivots only relabel", "statement": "Swapping the outgoing edges of two nodes (column pivot) or the incoming edges of two nodes (row pivot) leaves every input to output transfer unchanged; applying the same pivot twice restores the system.", "quantifier": "all systems and node pairs", "why_tests_cant": "all overlap patterns of the two edge sets", "anchors": ["phasor/matrix/DAG_algorithm_impl.py: pivotCOL_OP, pivotROW_OP"]}
{"id": "C20", "title": "Householder steps preserve the transfer and clear the target column", "statement": "The Householder reflection applied by the solver is unitary and its own inverse, leaves every input to output transfer unchanged, and makes every listed off-diagonal entry of the target node zero.", "quantifier": "all complex systems, all node subsets with nonzero norm", "why_tests_cant": "algebraic identity over all complex values", "anchors": ["phasor/matrix/DAG_algorithm_impl.py: householderREFL_ROW_OP, householderREFL_COL_OP"]}
{"id": "C21", "title": "The default solver returns the solution whatever sequence of steps it takes", "statement": "Any interleaving of LU reductions, pivots and Householder steps that consumes all internal nodes yields the exact output vector and transfer matrix, with the sign conventions of the 'negative' and 'scattering' options, provided all source, input and output nodes occur in the graph (for a scattering problem) or the matrix is invertible (for a plain one).", "quantifier": "all systems and all step sequences the heuristics may choose", "why_tests_cant": "the step sequence depends on numeric thresholds and hash order", "anchors": ["phasor/matrix/DAG_algorithm.py: inverse_solve_inplace, mgraph_simplify_inplace", "phasor/matrix/DAG_algorithm_impl.py: reduceLUQ_row"]}
{"id": "C22", "title": "The two solvers agree", "statement": "On a scattering problem for which both finish, whose source, input and output nodes occur in the graph, the default solver and the graph solver return the same outputs and the same transfer matrix (with both purges of the default solver off, for invertible systems).", "quantifier": "all systems", "why_tests_cant": "needs equality for all systems, not the handful compared in tests", "anchors": ["phasor/matrix/graph_algorithm.py: inverse_solve_inplace", "phasor/matrix/DAG_algorithm.py: inverse_solve_inplace", "phasor/matrix/solvers_registry.py"]}
{"id": "C23", "title": "Sparse product is the matrix product", "statement": "Multiplying two sparse (seq, req, edge) matrices gives a balanced sparse matrix whose dense form is the matrix product of the dense forms, provided the first matrix' req answers for every node the second one starts from (always so for defaultdicts).", "quantifier": "all pairs of balanced sparse matrices", "why_tests_cant": "all sparsity patterns", "anchors": ["phasor/matrix/SRE_matrix_algorithms.py: matrix_mult_sre"]}
{"id": "C24", "title": "Sparse adjoint is the conjugate transpose", "statement": "adjoint_sre yields the conjugate transpose, applying it twice restores the matrix, and (AB)^H equals B^H A^H.", "quantifier": "all balanced sparse complex matrices", "why_tests_cant": "all sparsity patterns and values", "anchors": ["phasor/matrix/SRE_matrix_algorithms.py: adjoint_sre, matrix_mult_sre"]}
{"id": "C25", "title": "Key spaces map keys and indices one to one", "statement": "Once frozen, a key space assigns the indices 0..n-1 to its n keys in sorted order, the two maps are inverse of each other, and no new key can be added (RuntimeError) while known keys still are accepted; the inverse space of the inverse is the original.", "quantifier": "all key sets and all histories of key additions and freezes", "why_tests_cant": "invariant over histories", "anchors": ["phasor/math/key_matrix/keymatrix.py: KVSpace"]}
{"id": "C26", "title": "The dense array of a keyed vector or matrix is never stale", "statement": "After any history of item writes, deletions, in-place additions and multiplications, growth of the key spaces and reads, reading .array (and .idx_dict) returns the array of the current entries on the current keys.", "quantifier": "all histories of writes and reads", "why_tests_cant": "the memo counter must be bumped on every write path; a stale array appears only for particular interleavings", "anchors": ["phasor/math/key_matrix/keymatrix.py: KeyVector, KeyMatrix, array, _memoize_count"]}
{"id": "C27", "title": "Keyed matrix arithmetic matches dense arithmetic", "statement": "Sum, difference, product, scaling and identity of keyed matrices agree with dense arithmetic, for every overlap of the stored entries. (Sum, difference and identity are those of KeyMatrix; KeyMatrix itself has no product, the keyed product is that of ForewardDictMatrix.)", "quantifier": "all keyed matrices on compatible spaces", "why_tests_cant": "all sparsity overlaps, including keys present on one side only", "anchors": ["phasor/math/key_matrix/keymatrix.py: KeyMatrix.__add__, __sub__, key_matrix_eye", "phasor/math/key_matrix/keyed_linear_algebra.py: ForewardDictMatrix"]}
{"id": "C28", "title": "backmap_array round trips", "statement": "Rebuilding a keyed matrix from the dense array of a keyed matrix gives back the same entries.", "quantifier": "all keyed matrices", "why_tests_cant": "index order matters only for non symmetric matrices", "anchors": ["phasor/math/key_matrix/keymatrix.py: KeyMatrix.backmap_array"]}
{"id": "C29", "title": "Topological sort visits every node once, dependencies first", "statement": "On an acyclic graph topological_sort yields every node reachable from the given nodes exactly once, as a singleton, each after all of its successors; on a graph with a cycle it yields the strongly connected components (or raises when single nodes were demanded).", "quantifier": "all finite graphs", "why_tests_cant": "all graph shapes and iteration orders", "anchors": ["phasor/math/key_matrix/keymatrix_reduce_tarjan.py: topological_sort, topological_sort_dict"]}
{"id": "C30", "title": "yield_bits_on lists the set bits", "statement": "For every natural number, yield_bits_on yields exactly the positions of its set bits, each once, in increasing order.", "quantifier": "all natural numbers, of any size", "why_tests_cant": "unbounded integers; the 36 bit window logic only matters for large numbers", "anchors": ["phasor/math/numerics.py: yield_bits_on, bit_lookup_37"]}
{"id": "C31", "title": "stackrange enumerates the full index product in order", "statement": "stackrange over a nonempty tuple of ranges yields every index tuple of the product exactly once, in lexicographic order.", "quantifier": "all tuple lengths and range sizes", "why_tests_cant": "all nesting depths", "anchors": ["phasor/matrix/linalg.py: stackrange"]}
{"id": "C32", "title": "The Complex class is the field of complex numbers", "statement": "+, -, *, / , negation, conjugate, abs_sq and equality of the Complex class agree with complex arithmetic, for complex/complex and complex/real operands on either side.", "quantifier": "all real components, nonzero divisors", "why_tests_cant": "sign errors in cross terms show only at generic values; needs all values", "anchors": ["phasor/math/complex.py: Complex"]}
{"id": "C33", "title": "Complex powers are powers", "statement": "z**n is the n-fold product for every integer n (and 1/z^|n| for negative n), and z**.5 squares to z with nonnegative real part.", "quantifier": "all complex z and integers n", "why_tests_cant": "the loop goes wrong for whole residue classes of exponents", "anchors": ["phasor/math/complex.py: Complex.__pow__"]}
{"id": "C34", "title": "Beam propagation composes", "statement": "Propagating a beam through M1 and then M2 gives the same beam parameter, wavelength and Gouy phasor (up to a positive factor) as propagating once through M2*M1, propagating through the identity changes nothing, and over a distance the phasor turns by the change of arctan(Z/ZR).", "quantifier": "all ABCD matrices and beam parameters with nonvanishing denominators", "why_tests_cant": "identity over all real matrices and complex q", "anchors": ["phasor/alm/beam_param.py: ComplexBeamParam.propagate_matrix, propagate_distance"]}
{"id": "C35", "title": "Beam parameter constructors and accessors agree", "statement": "from_Z_ZR, from_Z_W0, from_W_R, from_dRad_Z build beams whose Z, ZR, W0, W, R and divergence accessors return the given values, the accessors are the textbook formulas, and every physical beam stays physical (ZR>0) under propagation by a matrix of positive determinant.", "quantifier": "all real parameters in the physical domain", "why_tests_cant": "real valued identities", "anchors": ["phasor/alm/beam_param.py: ComplexBeamParam"]}
{"id": "C36", "title": "Cavity eigenmode is a fixed point", "statement": "For a stable unimodular round trip matrix the mode returned by eigen_q is mapped to itself by that matrix, has positive Rayleigh range, and is the only such mode; for an unstable one no mode is returned.", "quantifier": "all real 2x2 matrices with determinant 1 and |trace|<2", "why_tests_cant": "algebraic identity over a continuum", "anchors": ["phasor/alm/utils.py: eigen_q", "phasor/alm/beam_param.py: propagate_matrix"]}
{"id": "C37", "title": "Mode overlap is a normalised overlap", "statement": "overlap_with of a beam with itself is 1; for beams of the same wavelength |overlap| is symmetric and at most 1, with equality only for equal beam parameters, and the overlap is the overlap integral of the two normalised Gaussian modes over the plane.", "quantifier": "all physical beams of equal wavelength", "why_tests_cant": "inequality over a continuum", "anchors": ["phasor/alm/beam_param.py: ComplexBeamParam.overlap_with"]}
{"id": "C38", "title": "Optical layout matrices compose along any path", "statement": "In any nested layout, matrix_between(b,c)*matrix_between(a,b) equals matrix_between(a,c) for any three targets, matrix_between(a,a) is the identity, and memoised results equal fresh ones.", "quantifier": "all trees of nested systems, all targets at any depth, all query histories", "why_tests_cant": "arbitrary nesting depth and all pairs of targets in both directions", "anchors": ["phasor/alm/system.py: System.matrix_between", "phasor/alm/bases.py: MatrixAtsBase.matrix_between, LensInterface", "phasor/alm/space.py: Space", "phasor/alm/target.py: BeamTargetBase.matrix_between"]}
{"id": "C39", "title": "Layout positions are cumulative and tile the layout", "statement": "In a stack, positions start at 0, each component starts where the previous ends, and the total width is the sum of the widths; in a located system the auto inserted spaces fill every gap so that each located component sits at its location relative to the first.", "quantifier": "all component lists", "why_tests_cant": "all lengths and gap patterns", "anchors": ["phasor/alm/system.py: System.component_pos_pairings, SystemStack.component_pos_pairings, width_m, target_pos"]}
{"id": "C40", "title": "Port key propagation reaches the least closed assignment", "statement": "When port resolution finishes, the key set of every port contains the initially needed keys, is closed under every element's forwarding rules and under the bonds, contains nothing that is not forced, and does not depend on the order in which elements are processed.", "quantifier": "all systems of elements with monotone forwarding rules, all processing orders", "why_tests_cant": "all schedules of the worklist", "anchors": ["phasor/system/ports_algorithm.py: PortUpdatesAlgorithm"]}
{"id": "C41", "title": "Bilinear couplings linearise consistently", "statement": "At a fixed point of the iteration the edges and sources inserted by a three port coupling reproduce the product gain*p1*p2 exactly, and away from it they are its first order expansion about the previous solution.", "quantifier": "all gains and all previous solutions, including both factors being the same port", "why_tests_cant": "identity over all values", "anchors": ["phasor/system/matrix_injections.py: TripletCoupling, TripletNormCoupling"]}
{"id": "C42", "title": "Electrical scattering elements obey their circuit laws", "statement": "For every incoming wave, the waves produced by series and terminating impedances and admittances satisfy Ohm's law, and an N way connection satisfies Kirchhoff's laws (equal voltages, zero current sum) and conserves power.", "quantifier": "all complex impedances and waves, all numbers of ports", "why_tests_cant": "identity over all values and all N", "anchors": ["phasor/electronics/passive.py: TerminatorImpedance, TerminatorAdmittance, SeriesImpedance, SeriesAdmittance", "phasor/electronics/elements.py: Connection"]}
{"id": "C43", "title": "The four terminal impedance element obeys its impedance matrix", "statement": "The scattering gains of the 2x2 impedance element make the port voltages and currents satisfy V = Z I for the given impedance matrix.", "quantifier": "all impedance matrices and waves", "why_tests_cant": "rational identity over all values", "anchors": ["phasor/electronics/passive.py: Z2x2To4Port.system_setup_coupling, Transformer"]}
{"id": "C44", "title": "State space blocks realise their transfer function", "statement": "The couplings inserted for a state space model make the outputs equal (C (s-A)^-1 B + D) times the inputs.", "quantifier": "all matrices A, B, C, D of all sizes and all frequencies", "why_tests_cant": "all dimensions and values", "anchors": ["phasor/signals/state_space.py: StateSpaceModel.system_setup_coupling"]}
{"id": "C45", "title": "Zero pole filters have real impulse response", "statement": "filter_func(-f) is the complex conjugate of filter_func(f) for every zero pole cascade whose real roots are real.", "quantifier": "all root lists and frequencies", "why_tests_cant": "all list lengths and values", "anchors": ["phasor/signals/ZPSOS.py: SZPCascade.filter_func"]}
{"id": "C46", "title": "The sensitivity matrix has the root the code claims", "statement": "For every physical beam sensitivity_matrix is symmetric negative definite and sensitivity_matrix_sqrt is the symmetric positive definite matrix whose square is -sensitivity_matrix.", "quantifier": "all positive wavelengths and Rayleigh ranges, all positions", "why_tests_cant": "the closed formula for the root of a 2x2 matrix must hold for every beam, and the arguments of both roots must stay nonnegative", "anchors": ["phasor/alm/beam_param.py: ComplexBeamParam.sensitivity_matrix, sensitivity_matrix_sqrt"]}
{"id": "C47", "title": "Reversed beams retrace their path", "statement": "reversed is an involution that keeps the size and the wavelength and negates the position and the curvature; a beam sent through any system, reversed, and sent through the reversed system is the reverse of the original beam.", "quantifier": "all physical beams, all matrices of positive determinant", "why_tests_cant": "tests compare a few beams; the law must hold for every system including those with index changes", "anchors": ["phasor/alm/beam_param.py: ComplexBeamParam.reversed, propagate_matrix"]}
{"id": "C48", "title": "Lens and telescope matrices", "statement": "matrix_focus obeys the lens equation and a shift dL is conjugation with free space; matrix_telescope is afocal with magnification R when not detuned, and always unimodular.", "quantifier": "all nonzero focal lengths, ratios and all shifts", "why_tests_cant": "sign errors in the shift or the separation only show for particular arguments", "anchors": ["phasor/alm/utils.py: matrix_focus, matrix_space, matrix_telescope"]}
{"id": "C49", "title": "A reversed layout is the mirror image", "statement": "Toggling the reversed flag of any layout reverses the order of its elements and turns each around, keeps the width, and a ray that leaves the layout and is sent back through the reversed layout comes out as it went in.", "quantifier": "all nested layouts, located or stacked, with and without boundaries", "why_tests_cant": "the reversal goes through two independent placement algorithms and the sign rules of every element; tests reverse one layout", "anchors": ["phasor/alm/system.py: System.component_pos_pairings, SystemStack.component_pos_pairings", "phasor/alm/bases.py: env_reversed, LensInterface, ThinLens, ABCDGeneric"]}
{"id": "C50", "title": "Composite lenses obey the lensmaker's equation", "statement": "The focal length of PLCX and CXCX is that of the lensmaker's equation for a thick lens and a flat plate shifts rays by L/n per angle.", "quantifier": "all indices, radii and thicknesses", "why_tests_cant": "the factor of the index in the thickness only shows when thickness and curvature are both compared with the formula", "anchors": ["phasor/alm/composites.py: PLCX, CXCX, PLCXMirror", "phasor/alm/bases.py: LensInterface", "phasor/alm/space.py: Space.matrix"]}
{"id": "C51", "title": "The generated linear system agrees with the graph and the functions", "statement": "After the edge matrix and source vector are generated from a previous solution, the adjacency maps list exactly the stored edges, no stored value is zero, bonds are one, each injected edge and source is the sum of its functions, and no error is raised when the functions have values.", "quantifier": "all graphs, function lists and previous solutions", "why_tests_cant": "zero sums are dropped from three structures in step; a test sees one pattern of zeros", "anchors": ["phasor/system/solver_algorithm.py: _edge_matrix_generate, _source_vector_generate"]}
{"id": "C52", "title": "The sparsity analysis finds exactly the nodes that can carry a field", "statement": "For every set of bonds and injections and every order in which set.pop takes the nodes, the analysis ends and returns as active exactly the least set closed under bonds and under edges and sources whose NZ nodes are active, with the matching inputs, edges and outputs.", "quantifier": "all graphs, all NZ and req sets, all pop orders", "why_tests_cant": "set.pop order is arbitrary and the countdown per injection is easy to get off by one for repeated or empty NZ sets", "anchors": ["phasor/system/matrix_algorithm.py: _coherent_sparsity_graph"]}
{"id": "C53", "title": "A converged iteration and its readout solve the nonlinear equations", "statement": "When the perturbation iteration returns the solution it was given, the fields read out from that solution satisfy, at every node which influences the readouts or the nonlinear couplings, the nonlinear equation: the field is the sum of the fields bonded into the node and of every coupling evaluated at the fields; fields outside the nodes that can be driven are zero.", "quantifier": "all lists of couplings, bond graphs, solutions and readout sets, all pop orders and pivot orders", "why_tests_cant": "the iteration solves a linearised, purged, simplified system; only a proof connects its fixed points to the equations of the couplings", "anchors": ["phasor/system/solver_algorithm.py: _perturbation_iterate, driven_solution_get", "phasor/system/matrix_algorithm.py: _coherent_sparsity_graph"]}
{"id": "C54", "title": "Bond links route every bond through its posted and preceding ports", "statement": "For all bonds, the trivial bond graph has exactly the links along the ports posted after the source, across, and along the ports before the target, for exactly the keys of the source port; the two adjacency maps mirror each other; every intermediate port is reached from the source and leads to the target; and the loops end for all chains made by ports_post_get and ports_pre_get.", "quantifier": "all bond pair dictionaries, all chains, all key sets", "why_tests_cant": "the loop carries pfrom from one target to the next and has no bound; errors show only with several targets and several test points", "anchors": ["phasor/system/matrix_algorithm.py: _coherent_sparsity_graph l.280-308", "phasor/system/system.py: ports_post_get, ports_pre_get"]}
{"id": "C55", "title": "The waves of a circuit solve its equations exactly when voltages and currents obey the circuit laws", "statement": "For every circuit of electrical elements with bonds between pairs of ports, voltage and current fluctuations and voltage and current readouts: a field solves all node equations of the assembled system (bond links, element couplings, fluctuation couplings) if and only if bonded ports have equal voltages and opposite currents, every element obeys its circuit law with the fluctuation in series or parallel at its port, and the test points carry the waves on the bond side; then the voltage readout reads the bond side voltage of its terminal, and on ports without fluctuations the negative terminal subtracts its voltage and the current readout reads the current (with fluctuations on the port they do not, which is recorded as a disagreement).", "quantifier": "all lists of elements, bonds, fluctuations, readouts, all keys and all fields", "why_tests_cant": "the links, scattering gains and readout test points are spread over several modules and interact only in the assembled system; every circuit topology gives a different system", "anchors": ["phasor/electronics/*: system_setup_coupling", "phasor/electronics/noise.py", "phasor/electronics/multimeter.py", "phasor/system/system.py: bond_old, ports_post_get, ports_pre_get", "phasor/system/matrix_algorithm.py: _coherent_sparsity_graph"]}
{"id": "C56", "title": "Ports bonded together share their voltage and their currents add up to zero", "statement": "For every circuit and every sequence of calls of bond in which each port takes part (several bonds per port allowed) the completion makes connections and pairs of ports such that a field extends to the connections as a solution of all node equations if and only if ports bonded to each other have equal voltages, the currents into every set of ports closed under bonds add up to zero, and every element obeys its law; the completion succeeds exactly when no port is bonded to itself.", "quantifier": "all circuits, all bond graphs, all orders in which the partner sets are iterated, all fields", "why_tests_cant": "every bond topology builds another set of connections, the order of a python set decides the wiring, and the claim is about all solutions of the assembled system", "anchors": ["phasor/electronics/ports.py: bond, bond_inform, bond_completion", "phasor/mechanical/ports.py: bond_completion", "phasor/system/system.py: _setup_sequence l.322-336, bond_completion_raw, bond_old"]}
{"id": "C57", "title": "Rational filters have a real impulse response and the stated gain", "statement": "A rational filter with real gain and delay gives at -f the conjugate of its value at f, delays only change phases, and at the reference frequency gain_F_Hz (also at the default 0) the magnitude of the filter is the magnitude of the gain.", "quantifier": "all root lists, gains, delays, reference frequencies and frequencies", "why_tests_cant": "list lengths and values are unbounded and exceptions must agree at f and -f", "anchors": ["phasor/signals/ZPSOS.py: SRationalFilter.filter_func"]}
{"id": "C58", "title": "Integrators and resonances obey their equations of motion", "statement": "The single mechanical resonance x of mass m, width and centre frequency obeys m (s^2 + 2 pi FWHM s + (2 pi f0)^2) x = 1, and the integrator turns a frequency modulation v (Hz) into the phase p with i f p = v.", "quantifier": "all parameters and frequencies", "why_tests_cant": "identities between rational functions of complex parameters", "anchors": ["phasor/signals/siso_filter.py: TransferFunctionSISOMechSingleResonance.filter_func, Integrator.filter_func"]}
{"id": "C59", "title": "Signals stay real", "statement": "In a system of signal elements with real data (filters, amplifiers, summers, generators, mixers, modulators, doublers, mean-square detectors, bonds), the conjugate reflection of a solution (amplitude at -k replaced by the conjugate of the amplitude at k) is again a solution; if the solution is unique, the amplitudes at k and -k are conjugate.", "quantifier": "all systems of these elements, key sets, iteration orders and amplitudes", "why_tests_cant": "unbounded systems, nonlinear couplings and every iteration order of key sets", "anchors": ["phasor/signals/siso_filter.py: system_setup_coupling", "phasor/signals/amplifiers.py: system_setup_coupling", "phasor/signals/mixer.py: system_setup_coupling", "phasor/signals/RMS.py: MeanSquareMixer.system_setup_coupling", "phasor/signals/signal_generator.py: system_setup_coupling"]}
{"id": "C60", "title": "Order limits bound the keys", "statement": "A classical frequency key is rejected exactly when it contains some frequency with a multiplicity larger than its order in absolute value; so a key and its negative are treated alike and finitely many frequencies leave at most the product of (2 order + 1) keys. An optical key is accepted exactly when it is not constant and every multiplicity lies between 0 and the order.", "quantifier": "all keys, orders and frequency sets", "why_tests_cant": "the bound quantifies over all sets of keys", "anchors": ["phasor/system/system.py: reject_classical_frequency_order, reject_optical_frequency_order, classical_frequency_extract"]}
{"id": "C61", "title": "Mixers and modulators multiply signals", "statement": "At every time the in-phase output of a mixer is the product of local oscillator and input, the quadrature output the product of the local oscillator shifted by a quarter period and the input, and the output of a modulator is (1 + amplitude modulation) times the input plus the phase modulation times the input shifted by a quarter period.", "quantifier": "all key sets, amplitudes and times", "why_tests_cant": "an identity between functions of time for unboundedly many harmonics", "anchors": ["phasor/signals/mixer.py: Mixer.system_setup_coupling, Modulator.system_setup_coupling"]}
{"id": "C62", "title": "Mean-square detectors average the square", "statement": "The output of a mean-square detector is the constant component of the square of the input signal, in whatever order the key set is visited; for real signals it is the sum of the powers of the components.", "quantifier": "all key sets closed under negation, visiting orders and amplitudes", "why_tests_cant": "every permutation of every key set", "anchors": ["phasor/signals/RMS.py: MeanSquareMixer.system_setup_coupling"]}
{"id": "C63", "title": "Filters act on the keys in their band", "statement": "A single-input single-output filter multiplies the input at a key by the transfer function at the key's frequency when the frequency lies between the cutoffs (and is not 0 for filters without DC), contributes nothing otherwise, and treats f and -f alike; the cutoff of state space and multi-input blocks also treats f and -f alike.", "quantifier": "all filters, key sets, cutoffs and frequencies", "why_tests_cant": "unbounded key sets and cutoffs", "anchors": ["phasor/signals/siso_filter.py: TransferFunctionSISOBase.system_setup_coupling", "phasor/system/system.py: classical_frequency_test_max"]}
{"id": "C64", "title": "Raising fields are the conjugates of lowering fields", "statement": "In a system of optical elements with real data (spaces, lasers, mirrors, photodiodes, modulators, circulators, rotators, wave plates, selectors, bonds), exchanging lowering and raising fields together with conjugation maps solutions to solutions; if the solution is unique, the raising amplitude of a key is the conjugate of its lowering amplitude and signals at k and -k are conjugate.", "quantifier": "all systems of these elements, key sets, iteration orders and amplitudes", "why_tests_cant": "unbounded systems, nonlinear couplings, every iteration order of the key sets", "anchors": ["phasor/optics/nonlinear_utilities.py: modulations_fill_2optical_2classical", "phasor/optics/space.py: system_setup_coupling", "phasor/optics/mirror.py: system_setup_coupling", "phasor/optics/laser.py: system_setup_coupling"]}
{"id": "C65", "title": "Photodiodes measure power", "statement": "At a fixed point the signal a photodiode puts out is, at every time, the sum over carriers and polarizations of the light times its conjugate (for real light: the sum of the squared moduli), in whatever order the keys are visited; a MagicPD measures the same and passes the light on unchanged.", "quantifier": "all key sets, carriers, amplitudes, times and iteration orders", "why_tests_cant": "an identity of functions of time for unboundedly many beats", "anchors": ["phasor/optics/photodiode.py: PD.system_setup_coupling, MagicPD.system_setup_coupling", "phasor/optics/nonlinear_utilities.py: modulations_fill_2optical_2classical"]}
{"id": "C66", "title": "Modulators modulate", "statement": "The light leaving a phase modulator is the light entering times 1 + i m, of an amplitude modulator times 1 + m, of a combined one times 1 + a + i m, where m and a are the alternating parts of the drive signals, in both directions; raising fields get the conjugate factors.", "quantifier": "all key sets, amplitudes and times", "why_tests_cant": "an identity of functions of time for unboundedly many sidebands", "anchors": ["phasor/optics/modulators.py: PM, AM, AMPM system_setup_coupling", "phasor/optics/nonlinear_utilities.py: modulations_fill_2optical_2classical"]}
{"id": "C67", "title": "Mirrors conserve energy and vacuum", "statement": "A mirror that does not move puts out (1 - L) times the power that comes in at its four ports when the loss ports are dark, and its scattering matrix including the loss ports has orthonormal rows, for all transmissions, losses, backscatter, phases and angles of incidence.", "quantifier": "all mirrors, keys and fields", "why_tests_cant": "identities over all parameter values", "anchors": ["phasor/optics/mirror.py: system_setup_coupling"]}
{"id": "C68", "title": "The phase of the backscatter is applied", "statement": "The light a mirror scatters back into a port is turned by backscatter_phase_rad.", "quantifier": "all mirrors at an angle and phases", "why_tests_cant": "over all phases", "anchors": ["phasor/optics/mirror.py: system_setup_coupling"]}
{"id": "C69", "title": "A moving mirror shifts the phase of the light", "statement": "The light reflected by a mirror displaced by z has its phase shifted by 4 pi cos(angle) z / lambda, with opposite signs on the two sides and for raising fields; transmitted light is not shifted.", "quantifier": "all mirrors, key sets, fields, displacements and times", "why_tests_cant": "an identity of functions of time for unboundedly many sidebands", "anchors": ["phasor/optics/mirror.py: system_setup_coupling", "phasor/optics/nonlinear_utilities.py: modulations_fill_2optical_2classical"]}
{"id": "C70", "title": "Light pushes mirrors", "statement": "The force on a mirror is 2 cos(angle) / c times the reflectivity times the power of the light on the front minus that of the light on the back.", "quantifier": "all mirrors, key sets and fields", "why_tests_cant": "over all fields and parameters", "anchors": ["phasor/optics/mirror.py: system_setup_coupling", "phasor/optics/nonlinear_utilities.py: modulations_fill_2optical_2classical"]}
{"id": "C71", "title": "Spaces delay light", "statement": "Light leaving a space at time t is the light entering at the other end at t - L/c times the phase of the detuning, conjugate for raising fields; the power is unchanged; two spaces in a row act as one whose length and detuning are the sums.", "quantifier": "all lengths, detunings, key sets, fields and times", "why_tests_cant": "an identity of functions of time", "anchors": ["phasor/optics/space.py: system_setup_coupling, phase_lower, phase_raise"]}
{"id": "C72", "title": "The power of a laser arrives", "statement": "A photodiode behind a laser and a space shows the power of the laser at zero frequency and nothing at other frequencies.", "quantifier": "all lasers, spaces, keys and photodiodes", "why_tests_cant": "over all parameters and key sets", "anchors": ["phasor/optics/laser.py: system_setup_coupling", "phasor/optics/space.py: system_setup_coupling", "phasor/optics/photodiode.py: PD.system_setup_coupling"]}
{"id": "C73", "title": "Rotators rotate", "statement": "For every angle, including the multiples of 90 degrees that have branches of their own, a polarization rotator turns the polarization by its angle and turns returning light back, a Faraday rotator turns returning light once more; both keep the power.", "quantifier": "all angles, keys and fields", "why_tests_cant": "every angle, special angles and all fields", "anchors": ["phasor/optics/polarization.py: PolarizationRotator, FaradayRotator system_setup_coupling"]}
{"id": "C74", "title": "Mounted wave plates", "statement": "A half-wave plate mounted at an angle reflects the polarization at its axis (turning it by twice the angle) in both directions and is undone by a second one; two quarter-wave plates at one angle act as a half-wave plate; every plate with unimodular factors keeps the power.", "quantifier": "all angles, key sets and solutions of the inner network", "why_tests_cant": "over all angles and fields of an inner network of three elements", "anchors": ["phasor/optics/polarization.py: WavePlate, WavePlateMount, HalfWavePlate, QuarterWavePlate"]}
{"id": "C75", "title": "Selectors send each key to one port", "statement": "A selector sends the light of each key to the one port that accepts it and combines returning light at the front; setting it up fails exactly when some key is accepted by no port or by several; a polarization selector does the same for the two polarizations; a stack checks that its elements have the same ports.", "quantifier": "all selectors, key sets and fields", "why_tests_cant": "over all key sets and tests", "anchors": ["phasor/optics/selectors.py: PolSelector, GenericSelector system_setup_coupling"]}
{"id": "C76", "title": "Circulators pass light to the next port", "statement": "A circulator sends the light of port i to port i+1 and of the last to the first, for any number of ports, and keeps the power.", "quantifier": "all numbers of ports, key sets and fields", "why_tests_cant": "any number of ports", "anchors": ["phasor/optics/circulator.py: system_setup_coupling"]}
{"id": "C77", "title": "Noise readouts are second moments of the network", "statement": "The noise map holds exactly the pairs inserted by the noise elements; every entry of the cross spectral density of a noise readout is the sum over these pairs of spectrum times couplings, split by source without remainder, and equals the second moment of the fields at the two ports that solve the network for any ensemble of sources with these spectra.", "quantifier": "all noise maps, port maps, networks, couplings and ensembles", "why_tests_cant": "unbounded networks and numbers of sources; a statement about ensembles", "anchors": ["phasor/system/matrix_algorithm.py: _noise_map, noise_pair_insert", "phasor/readouts/noise.py: CSD_builds", "phasor/readouts/AC.py: AC_PSD, AC_PSD_by_source"]}
{"id": "C78", "title": "Cross spectral densities are hermitian and positive", "statement": "In a network whose couplings at conjugate nodes are conjugate, with sources that pair each node with its conjugate and spectra that are not negative, the cross spectral density is hermitian and positive semidefinite, and taking the real part on the diagonal changes nothing.", "quantifier": "all such networks, sources, readouts and weights", "why_tests_cant": "positivity over all complex weights and networks", "anchors": ["phasor/readouts/noise.py: CSD_builds", "phasor/electronics/noise.py: system_setup_noise", "phasor/optics/vacuum.py: system_setup_noise"]}
{"id": "C79", "title": "Passive circuits are reciprocal", "statement": "In every circuit of passive elements, cables, connections and current sources, the voltage one source makes at another is the voltage the other makes at the first; the voltage fluctuations make at a source is minus the sum of the fluctuations times the currents the source would send through them.", "quantifier": "all circuits, bonds, element values and frequencies other than zero", "why_tests_cant": "unbounded circuits and all values", "anchors": ["phasor/electronics/passive.py", "phasor/electronics/smatrix.py", "phasor/electronics/elements.py: Connection, Cable", "phasor/electronics/sources.py: CurrentSource"]}
{"id": "C80", "title": "Johnson noise obeys the theorem of Nyquist", "statement": "The one-sided spectral density of the voltage at a terminal of a circuit whose resistances all have Johnson noise is 4 kB T times the real part of the impedance seen from the terminal.", "quantifier": "all passive circuits, values, temperatures and frequencies", "why_tests_cant": "unbounded circuits; a relation of two independent computations", "anchors": ["phasor/electronics/passive.py: johnson_noise", "phasor/electronics/smatrix.py: TerminatorMatched.johnson_noise", "phasor/electronics/noise.py: VoltageFluctuation", "phasor/readouts/noise.py: CSD_builds", "phasor/system/system.py: adjust_PSD"]}
{"id": "C81", "title": "Loop gains read out of the closed system are those of the open loop", "statement": "An AC readout reports the response of the closed system from the drive to the sensor, relative to the displacement; a loop gain readout at a port reports CLG = 1/(1 - L) and OLG = -L, where L is the gain once round the loop when the loop is cut at the port; the plant reported is the response of the sensor with the loop cut at the actuator.", "quantifier": "all networks, ports, drives and solver runs", "why_tests_cant": "the open loop is another network, never built by the code", "anchors": ["phasor/readouts/AC.py: ACReadout, ACReadoutCLG, ACReadoutLG"]}
{"id": "C82", "title": "A homodyne readout at a phase reads the rotated quadrature", "statement": "The spectral density and the sensitivity of a homodyne readout at a phase are those of a readout of a port which carries cos(phase) I + sin(phase) Q; turning by one phase and then by another is turning by their sum; the densities of the sources add up to the density.", "quantifier": "all noise maps, networks, phases and couplings", "why_tests_cant": "all real phases and unbounded networks", "anchors": ["phasor/readouts/homodyne_AC.py: AC_CSD_IQ, AC_PSD, AC_PSD_by_source, AC_sensitivity, AC_sensitivity_IQ"]}
{"id": "C83", "title": "The noise ellipse gives the least and the largest noise over all phases", "statement": "min and max of the noise ellipse are the least and the largest spectral density over all readout phases and are attained at the reported angle; Imin and Qmin are the least densities left of one quadrature after subtracting any multiple of the other.", "quantifier": "all matrices of densities and all phases", "why_tests_cant": "extrema over all real phases", "anchors": ["phasor/readouts/homodyne_AC.py: AC_CSD_ellipse"]}
{"id": "C84", "title": "The optimal readout is optimal", "statement": "No readout phase has a noise limited sensitivity below the optimal one, which does not depend on the phase of the readout that is asked, and it is attained at some phase exactly if the sensitivities of the quadratures have a real ratio; the readout returned as optimal attains it.", "quantifier": "all positive definite densities, sensitivities and phases", "why_tests_cant": "an inequality over all phases, densities and sensitivities", "anchors": ["phasor/readouts/homodyne_AC.py: AC_noise_limited_sensitivity, AC_noise_limited_sensitivity_optimal, AC_optimal_readout_deg, optimal_readout"]}
{"id": "C85", "title": "A photodiode responds to fluctuations of the light with the beat against the light of the solution", "statement": "For a nonlinear solution, the linear coupling from a lowering field at frequency f to the readout at frequency d is the raising amplitude of the solution at f - d, and from a raising field at f it is the lowering amplitude at f + d (half of it at d = 0); there are no other couplings into the readout; for d other than 0 this is the first order change of the power at frequency d.", "quantifier": "all solutions, all sets of optical and signal keys, all frequencies", "why_tests_cant": "all solutions and all first order changes of the fields", "anchors": ["phasor/optics/photodiode.py: PD.system_setup_coupling", "phasor/optics/nonlinear_utilities.py: modulations_fill_2optical_2classical"]}
{"id": "C86", "title": "The shot noise of a photodiode is 2 h nu P, whatever the optics before it", "statement": "In a network of bonds, spaces, wave plates, rotators, circulators and mirrors (with losses, without phase and mechanical drive) with the optical vacuum at all open ports, loss ports and lasers, the one-sided spectral density of a photodiode which the AC readout reports is the sum over the light of the solution of 2 h nu |amplitude|^2, which for one wavelength is 2 h nu times the output of the photodiode at zero frequency; every one of the elements keeps the commutation relations of the fields.", "quantifier": "all networks of such elements, all solutions, solver runs and frequencies whose sidebands are in the model", "why_tests_cant": "unbounded networks; holds by cancellation over all vacuum inputs", "anchors": ["phasor/optics/vacuum.py: OpticalVacuumFluctuation", "phasor/optics/photodiode.py", "phasor/optics/mirror.py", "phasor/optics/space.py", "phasor/optics/polarization.py", "phasor/optics/circulator.py", "phasor/readouts/AC.py"]}
{"id": "C87", "title": "The couplings reported from drives to readouts are the response of the linearised system", "statement": "For a solution which the iteration returned, coupling_solution_get returns, for every drive and readout, the field at the readout of the system linearised at that solution when a unit source is put at the drive, whenever that system determines its fields.", "quantifier": "all sets of couplings, bonds, drives, readouts, picking orders of the solver and solutions", "why_tests_cant": "the linear system is built from sets of nonzero factors and inverted by an elimination in arbitrary order", "anchors": ["phasor/system/solver_algorithm.py: coupling_solution_get", "phasor/system/matrix_injections.py", "phasor/matrix/SRE_matrix_algorithms.py"]}
{"id": "C88", "title": "The response is the derivative of the operating point with respect to the drives", "statement": "If the sources of the nonlinear system are increased by eps times s at the drives, the derivative of the field at a readout at eps = 0 is the sum of the reported couplings times s.", "quantifier": "all sets of couplings, solutions and drives", "why_tests_cant": "derivatives at all solutions", "anchors": ["phasor/system/solver_algorithm.py: coupling_solution_get", "phasor/system/matrix_injections.py", "phasor/optics/nonlinear_utilities.py: modulations_fill_2optical_2classical", "phasor/optics/photodiode.py"]}
{"id": "C89", "title": "Mechanical elements obey their force laws", "statement": "The waves at the ports of a damper, spring (with or without loss angle), mass (to ground or between two ports), cable, impedance converter and lever (in one dimension or in space) satisfy the couplings the element inserts if and only if displacements D = i + o and forces G = (i - o)/Zm obey the law of the element, for every termination Zm.", "quantifier": "all elements, parameters, frequencies, fields and termination impedances", "why_tests_cant": "holds over a field, for all values including negative and complex ones", "anchors": ["phasor/mechanical/passive.py", "phasor/mechanical/smatrix.py", "phasor/mechanical/elements.py: Cable", "phasor/mechanical/string.py: ZConverter", "phasor/mechanical/xyz.py"]}
{"id": "C90", "title": "Levers do no work", "statement": "For every lever, in one dimension and in space, the forces and torques of any waves do no work on the displacements and rotations of any other waves, and the scattering matrix is orthogonal; MomentDriver inserts such a lever along a given direction.", "quantifier": "all lever vectors and waves", "why_tests_cant": "identity over all vectors", "anchors": ["phasor/mechanical/xyz.py: XYZMomentDriver", "phasor/mechanical/xyz.py: Moment1D", "phasor/mechanical/xyz.py: MomentDriver"]}
{"id": "C91", "title": "A string is a line with the mobility sqrt(tension * density)", "statement": "In any circuit the two ends of a string obey the equations of a line with the delay length/velocity and the characteristic mobility sqrt(N rho): a string without losses which ends in a damper with this mobility looks like the damper, and takes up as much power as it gives away.", "quantifier": "all circuits with a string, all frequencies", "why_tests_cant": "unbounded circuits", "anchors": ["phasor/mechanical/string.py: String", "phasor/mechanical/string.py: ZConverter"]}
{"id": "C92", "title": "Thermal noise of mechanical circuits obeys the fluctuation-dissipation theorem", "statement": "The one-sided spectral density of the displacement of any port of a circuit of dampers, springs, masses, connections, levers and sources, all dampers and springs at the temperature T, is 4 k T / (2 pi f) times minus the imaginary part of the displacement per unit force at this port.", "quantifier": "all circuits, parameters and frequencies", "why_tests_cant": "the sum over all noise sources must reduce to a property of one response, for unbounded circuits", "anchors": ["phasor/mechanical/passive.py", "phasor/mechanical/noise.py: DisplacementFluctuation", "phasor/readouts/noise.py"]}
{"id": "C93", "title": "The keys found by the worklist suffice", "statement": "When the worklist of the port keys ends, every node that a coupling of an optical or signal element drives is a node of the system, so no coupling raises an exception when it is inserted; every beat of the light at a detector and every sideband at a modulator or moving mirror within the order limits is found; optical ports hold keys of light and signal ports frequency keys.", "quantifier": "all systems of the modelled elements, all orders of the worklist", "why_tests_cant": "unbounded systems, key sets and orders of traversal of python sets", "anchors": ["phasor/optics/nonlinear_utilities.py: ports_fill_2optical_2classical", "phasor/system/ports_algorithm.py", "phasor/optics, phasor/signals: system_setup_ports", "phasor/system/matrix_algorithm.py: _insert"]}
{"id": "C94", "title": "Port keys come in conjugate pairs", "statement": "When the worklist ends, a port has a key if and only if it has its conjugate (LOWER and RAISE of the same frequency, signals of opposite frequencies); so all optical elements set up their couplings without an exception.", "quantifier": "all systems of the modelled elements, all orders of the worklist", "why_tests_cant": "invariant of all intermediate states in all orders", "anchors": ["phasor/optics/nonlinear_utilities.py: ports_fill_2optical_2classical", "phasor/system/ports_algorithm.py", "phasor/optics, phasor/signals: system_setup_ports"]}
{"id": "C95", "title": "Order limits bound the keys and end the worklist", "statement": "The worklist raises no exception in any order, all keys at the ports are within the order limits and made of the frequencies and carriers of the system, and it ends in every order if the limits are finite.", "quantifier": "all systems of the modelled elements, all order limits, all orders of the worklist", "why_tests_cant": "termination for all inputs and orders", "anchors": ["phasor/optics/nonlinear_utilities.py: ports_fill_2optical_2classical", "phasor/system/ports_algorithm.py", "phasor/optics, phasor/signals: system_setup_ports", "phasor/optics/system.py: reject_classical_frequency_order"]}
{"id": "C96", "title": "Port keys do not depend on the order of traversal", "statement": "When the worklist ends a port has exactly the keys it needs, the least sets closed under the requests of the elements; two runs in different orders find the same keys.", "quantifier": "all systems of the modelled elements, all pairs of orders", "why_tests_cant": "all orders of traversal of python sets", "anchors": ["phasor/optics/nonlinear_utilities.py: ports_fill_2optical_2classical", "phasor/system/ports_algorithm.py", "phasor/optics, phasor/signals: system_setup_ports"]}
{"id": "C97", "title": "Integrating couplings emit the integrated fields and carry their derivative", "statement": "After an update of ExpMatCoupling at given inputs, edges and injection together emit exactly the result of the N steps of the integration, the edges are the derivative of that result with respect to the inputs, nothing else is coupled, and a second update with the same inputs changes nothing.", "quantifier": "all systems of polynomial equations, numbers of steps, inputs and previous states", "why_tests_cant": "for all equations and inputs; derivative is a limit", "anchors": ["phasor/optics/ODE_solver.py: ExpMatCoupling"]}
{"id": "C98", "title": "The integration converges to the differential equations", "statement": "If the equations have a solution on the interval, the emitted fields differ from it by at most C/N, and the edges from the solution of the linearised equations by at most C/N.", "quantifier": "all systems of polynomial equations with a solution, all large numbers of steps", "why_tests_cant": "limit over the number of steps", "anchors": ["phasor/optics/ODE_solver.py: ExpMatCoupling"]}
{"id": "C99", "title": "The nonlinear crystal couples without errors", "statement": "If the keys of the ports are closed under conjugation, the same at input and output, and single wavelengths, set-up and every update succeed and edges lead only from the input to the output; a composite wavelength raises.", "quantifier": "all key sets, gains, fields and previous states", "why_tests_cant": "for all key sets and fields", "anchors": ["phasor/optics/ODE_solver.py: ExpMatCoupling", "phasor/optics/nonlinear_crystal.py: system_setup_coupling"]}
{"id": "C100", "title": "The nonlinear crystal conserves power", "statement": "Fields in conjugate pairs leave the crystal with the power they enter with, up to C/N.", "quantifier": "all key sets, gains, inputs, large numbers of steps", "why_tests_cant": "limit; all key sets", "anchors": ["phasor/optics/ODE_solver.py: ExpMatCoupling", "phasor/optics/nonlinear_crystal.py: system_setup_coupling"]}
{"id": "C101", "title": "Elements without interaction are transparent", "statement": "A crystal before its first update and at zero fields, and a modulator whose drive diffracts nothing, pass the light unchanged.", "quantifier": "all key sets", "why_tests_cant": "all key sets", "anchors": ["phasor/optics/ODE_solver.py: ExpMatCoupling", "phasor/optics/nonlinear_crystal.py: system_setup_coupling", "phasor/optics/AOM.py: system_setup_coupling"]}
{"id": "C102", "title": "The nonlinear crystal keeps conjugate pairs", "statement": "Fields in conjugate pairs leave the crystal in conjugate pairs.", "quantifier": "all key sets, gains, inputs, numbers of steps", "why_tests_cant": "all key sets, limit", "anchors": ["phasor/optics/ODE_solver.py: ExpMatCoupling", "phasor/optics/nonlinear_crystal.py: system_setup_coupling"]}
{"id": "C103", "title": "The acousto-optic modulator couples without errors and conserves the power of light", "statement": "Set-up and all updates succeed, edges lead from the inputs and the drive to the optical outputs, and the power of the light is conserved and conjugate pairs kept up to C/N.", "quantifier": "all key sets, gains, split frequencies, inputs, large numbers of steps", "why_tests_cant": "limit; all key sets and fields", "anchors": ["phasor/optics/ODE_solver.py: ExpMatCoupling", "phasor/optics/AOM.py: system_setup_coupling"]}
{"id": "C104", "title": "The acousto-optic modulator diffracts by the sine of the drive", "statement": "A single drive of amplitude D diffracts light a into -i (D/|D|) sin(gamma |D|) a at the other port, shifted by the drive, and leaves cos(gamma |D|) a, up to C/N; at the nominal drive all light is diffracted.", "quantifier": "all gains, amplitudes, key sets, large numbers of steps", "why_tests_cant": "limit over the number of steps", "anchors": ["phasor/optics/ODE_solver.py: ExpMatCoupling", "phasor/optics/AOM.py: system_setup_coupling"]}
{"id": "C105", "title": "The scipy solver returns the solution", "statement": "When the scipy solver returns, the outputs are those of the solution of x = M x + source (scattering) or of A x = source (plain), and the transfer edges are the block of (1 - M)^-1 or A^-1 from inputs to outputs, up to the sign option. On an invertible system in which a source or input reaches an output it does return.", "quantifier": "all graphs, values, sources, inputs, outputs, options, orders of the sorts and of set.pop, and all exact spsolve", "why_tests_cant": "for all graphs and orders", "anchors": ["phasor/matrix/scisparse_algorithm.py: inverse_solve_inplace, mgraph_simplify_inplace"]}
{"id": "C106", "title": "Scipy and default solver agree", "statement": "On a scattering problem for which both solvers return, outputs and transfer edges are the same.", "quantifier": "all graphs, sources, inputs, outputs, options, heuristics and orders", "why_tests_cant": "for all graphs and orders", "anchors": ["phasor/matrix/scisparse_algorithm.py: inverse_solve_inplace, mgraph_simplify_inplace", "phasor/matrix/DAG_algorithm_impl.py: inverse_solve_inplace"]}
{"id": "C107", "title": "The nonlinear iteration stops at a settled operating point", "statement": "solve() takes at most max_N steps; if it stops earlier, no field changed by more than the tolerance relative to its size in the last step, and it did so in no earlier step. What is read afterwards belongs to the system linearised at the last operating point or the one before. Linear systems take at most two steps and the readouts obey the equations. With exact_order set it takes just that many steps. solve() raises nothing of its own.", "quantifier": "all systems, tolerances, step limits, couplings and orders of the analysis", "why_tests_cant": "for all systems and iterations", "anchors": ["phasor/system/solver_algorithm.py: solve, delta_v_compute, driven_solution_get, coupling_solution_get"]}
{"id": "C108", "title": "Solutions of an order do not depend on what was asked before", "statement": "After any sequence of calls of solve, driven_solution_get and coupling_solution_get, a solution or coupling of a given order is that of the system linearised at the operating point of the order before.", "quantifier": "all systems, sequences of calls, orders and sets", "why_tests_cant": "unbounded sequences of calls", "anchors": ["phasor/system/solver_algorithm.py: solve, delta_v_compute, driven_solution_get, coupling_solution_get"]}
{"id": "C109", "title": "Floating blocks enter the matrix where they say, and add to the other couplings", "statement": "After _edge_matrix_generate every nonzero entry of the block of a floating coupling is an edge of the matrix between an input and an output of its pair, everything else is what the ordinary couplings generate, and couplings between the same nodes add. Entries outside the declared inputs and outputs stop the generation; otherwise it raises nothing of its own.", "quantifier": "all systems, floating pairs, block functions and previous solutions", "why_tests_cant": "for all blocks and graphs", "anchors": ["phasor/system/solver_algorithm.py: _edge_matrix_generate, _perturbation_iterate, driven_solution_get"]}
{"id": "C110", "title": "The sparsity analysis sees fields through floating couplings and leaves no trace of its virtual nodes", "statement": "_coherent_sparsity_graph returns; a node is active iff it can carry a field, where a floating coupling can carry a field from any of its inputs to all of its outputs; all nodes of floating_req_set are solved for; the graph of the iteration keeps every edge on a way from an input to an output through floating couplings; no virtual node is left in the returned graphs, and their two dictionaries are each other's converse.", "quantifier": "all systems of injections and floating pairs, all orders of set.pop()", "why_tests_cant": "for all graphs and analysis orders", "anchors": ["phasor/system/matrix_algorithm.py: _coherent_sparsity_graph"]}
{"id": "C111", "title": "A converged iteration with floating couplings solves the system", "statement": "When the iteration returns its own argument, the readouts hold fields which at every relevant node are the sum of the bonded fields, of what every ordinary coupling stands for, and of the blocks and sources of the floating couplings.", "quantifier": "all systems whose blocks do not meet other couplings, all solver orders", "why_tests_cant": "for all systems, nonlinear couplings included", "anchors": ["phasor/system/matrix_algorithm.py: _coherent_sparsity_graph", "phasor/system/solver_algorithm.py: _edge_matrix_generate, _perturbation_iterate, driven_solution_get", "phasor/optics/ODE_solver.py: ExpMatCoupling"]}
{"id": "C112", "title": "A converged iteration with integrating couplings solves the nonlinear system", "statement": "When the iteration returns its own argument and the integrating couplings were updated at it, their linearisations drop out: the fields at the outputs of an integrating coupling are, besides what else leads there, exactly where the integration of the fields at its inputs ends.", "quantifier": "all systems of ordinary and integrating couplings that do not meet, all equations, numbers of steps and solver orders", "why_tests_cant": "for all systems and polynomial equations of motion", "anchors": ["phasor/system/matrix_algorithm.py: _coherent_sparsity_graph", "phasor/system/solver_algorithm.py: _edge_matrix_generate, _perturbation_iterate, driven_solution_get", "phasor/optics/ODE_solver.py: ExpMatCoupling"]}
{"id": "C113", "title": "Orthogonalisation of a sparse matrix gives an orthonormal matrix with the same spans", "statement": "edge_matrix_to_unitary_sre returns None exactly when a row of the matrix depends on the rows before it (in the order of the sorted rows); otherwise the rows of the result are orthonormal and the first n of them span what the first n rows of the matrix span. It raises nothing.", "quantifier": "all sparse complex matrices, all orders of the rows", "why_tests_cant": "for all matrices, including rectangular ones and rows with dropped entries", "anchors": ["phasor/matrix/SRE_matrix_algorithms.py: edge_matrix_to_unitary_sre, generate_unitary_by_gram_schmidt"]}
{"id": "C114", "title": "The numbers a squeezer uses agree with the parameters it is given", "statement": "An EZSqz made from a power gain, field gain, normalized gain, one or two variances (with or without loss) or decibels uses gains with G1^2 - G2^2 = 1 and a loss between 0 and 1 for which the variances (1-l)(G1-G2)^2+l and (1-l)(G1+G2)^2+l, the loss and the decibels are those given, and stores them.", "quantifier": "all real parameters allowed by the uncertainty relation", "why_tests_cant": "for all parameters; the only test of the element is skipped", "anchors": ["phasor/optics/EZSqz.py: EZSqz.__init__"]}
{"id": "C115", "title": "A squeezer keeps the commutators, gives the two quadratures their variances and passes other light", "statement": "The light that leaves the ports of an EZSqz, loss ports included, has the commutators of light; with vacuum at its inputs the quadrature along phi_sqz_deg (amplitude by default) has the variance rel_variance_1, the other one rel_variance_2, all others are in between; light of other optical frequencies passes.", "quantifier": "all gains, losses, angles, keys and input fields", "why_tests_cant": "for all fields and parameters; the only test of the element is skipped", "anchors": ["phasor/optics/EZSqz.py: EZSqz.system_setup_coupling"]}
{"id": "C116", "title": "The matrix from a target to a place does not depend on the target", "statement": "For every layout, target and place z within it, matrix_target_to_z_single gives the matrix of the light path from the target to z, so that matrices from two targets to one place differ by the matrix between the targets, and at the position of a target it is the matrix to that target.", "quantifier": "all layouts, targets and places", "why_tests_cant": "for all nested layouts and places; no test calls it", "anchors": ["phasor/alm/system.py: matrix_target_to_z_single"]}
{"id": "C117", "title": "The overlap of two targets is symmetric, at most one, and one for equal beams", "statement": "For every layout with named beam targets, beam_targets lists every target once in the order of the positions; overlap(a, b) has the absolute value of overlap(b, a), in (0, 1], 1 exactly when the beam of a arrives at b as the beam of b, and is the same wherever along the layout it is taken; overlap_list gives the powers of successive targets and overlap_seq their product.", "quantifier": "all layouts, targets and beams", "why_tests_cant": "for all layouts and beams; tests print some overlaps", "anchors": ["phasor/alm/measurements.py: overlap, overlap_seq, overlap_list, beam_targets"]}
{"id": "C118", "title": "One beam fills the layout and Gouy phases add along it", "statement": "target_q at the source is the beam given; followed from one place to another by the matrix between them it is target_q there; relative_gouy_phasor has absolute value 1, that from A to C is the product of those from A to B and B to C, and over a space of optical length d it turns by arctan((Z+d)/ZR) - arctan(Z/ZR).", "quantifier": "all layouts, sources, targets, and places where no thin element acts", "why_tests_cant": "for all layouts, beams and places", "anchors": ["phasor/alm/measurements.py: target_q, target_q_z, relative_gouy_phasor"]}
{"id": "C119", "title": "The polynomial of the optimum filter has integer coefficients and grows from 0 to 1", "statement": "For every order N > 0, the fractions computed by optimum_poly(N) are integers, so that int drops nothing; there are 2N+1 of them, the first not zero, those of odd powers zero; the polynomial is even, 0 at frequency 0, 1 at frequency 1, and strictly increasing in the frequency.", "quantifier": "all orders N", "why_tests_cant": "for all orders; the tests compare ten lists", "anchors": ["phasor/signals/filters/legendre_filters.py: optimum_poly"]}
{"id": "C120", "title": "The prototype of the optimum filter is stable and has the response of its polynomial", "statement": "For every order N, legendreap(N) gives no zeros, N poles with negative real parts and a gain k for which the squared magnitude of the response at every frequency w is 1/(1+L_N(w)): 1 at zero, 1/2 at the cut-off 1, strictly falling; without mpmath orders above 25 raise ValueError.", "quantifier": "all orders and frequencies, any root finder that returns all roots", "why_tests_cant": "for all orders and frequencies; the tests compare coefficients for two orders", "anchors": ["phasor/signals/filters/legendre_filters.py: legendreap, _roots"]}
{"id": "C121", "title": "No filter with a monotonic passband has a steeper cut-off than the optimum filter", "statement": "Of all polynomials in the square of the frequency, of degree at most N, that are 0 at frequency 0 and 1 at frequency 1 and grow in between, that of optimum_poly(N) has the largest slope at frequency 1.", "quantifier": "all orders and all competing real polynomials", "why_tests_cant": "a statement about all polynomials", "anchors": ["phasor/signals/filters/legendre_filters.py: optimum_poly, legendreap (docstring)"]}
{"id": "C122", "title": "The sections of an array of booleans are its runs of True, and the antisections the rest", "statement": "For every array of booleans generate_sections never fails its assertion and returns, in order, the intervals of indices that are True, joined where at most reconnect_length False entries lie between; generate_antisections returns the complement of ordered sections.", "quantifier": "all arrays of booleans, all reconnection lengths", "why_tests_cant": "for all arrays; there is no test", "anchors": ["phasor/utilities/np.py: generate_sections, generate_antisections"]}
{"id": "C123", "title": "Phases are continued, split from the sign and differentiated correctly", "statement": "continuous_phase returns phases of the data without jumps; mag_phase_signed returns the one signed magnitude and angle between -45 and 135 degrees that make up the number; group_delay returns the change of phase, taken the short way round, over the change of frequency, which for a pure delay sampled finely enough is the delay.", "quantifier": "all complex data", "why_tests_cant": "for all data; there is no test", "anchors": ["phasor/utilities/np.py: continuous_phase, mag_phase_signed, group_delay"]}
{"id": "C124", "title": "first_non_NaN finds the first number of an array", "statement": "For every array that starts with NaN entries, first_non_NaN returns the index of the first entry that is a number, or the length if there is none.", "quantifier": "all arrays", "why_tests_cant": "for all arrays; there is no test", "anchors": ["phasor/utilities/np.py: first_non_NaN"]}
{"id": "C125", "title": "domain_sort and interval_limit keep rows together", "statement": "domain_sort puts the domain in order and applies the same permutation to every full column, leaving scalars and missing columns alone; interval_limit keeps exactly the rows whose domain value lies in the closed interval, in order.", "quantifier": "all columns, any argsort that sorts", "why_tests_cant": "for all columns; there is no test", "anchors": ["phasor/utilities/np.py: domain_sort, interval_limit"]}
{"id": "C126", "title": "Sums, differences and multiples of values with units are those of the amounts", "statement": "For values with units of the same kind the sum and the difference are in the units of the first and have the sum and difference of the amounts, for the value and for its reference, whatever units the second is written in; different kinds are refused; multiples, negatives and quotients by numbers multiply the amounts.", "quantifier": "all numbers of any field, all units of any system of dimensions", "why_tests_cant": "for all units and values", "anchors": ["phasor/base/simple_units.py: SimpleUnitfulGroup"]}
{"id": "C127", "title": "A parameter is the same amount in all of its units", "statement": "Read through any of its attributes with the name of a unit, a parameter has the amount of the number and units in the tree, and so has its reference, which is the value if none is given; units of another kind are refused.", "quantifier": "all trees, all units", "why_tests_cant": "for all trees and units", "anchors": ["phasor/base/simple_units.py: ElementRefValue"]}
{"id": "C128", "title": "A parameter is set up to the amount it is given, once, unless the tree has another", "statement": "A parameter given once by a number in named units, a value with units, a quantity or a unit is read as that amount in all units; given twice or not at all is an error unless there is a default; what the tree holds has precedence with its own meaning; prototypes are copied.", "quantifier": "all sources, trees and units", "why_tests_cant": "for all sources and trees", "anchors": ["phasor/base/multi_unit_args.py: generate_refval_attribute", "phasor/base/pint.py: mag1_units"]}
{"id": "C129", "title": "Fit parameters are injected, put back and read at the place of the parameter", "statement": "The key of a fit parameter leads to the place the parameter is read from; its initial value is its reference; an injected value or a value put back is what is read in all units and is the next initial value, nothing else in the tree changes, and both can be repeated.", "quantifier": "all trees, elements and units", "why_tests_cant": "for all trees and elements", "anchors": ["phasor/base/simple_units.py: fitter_data", "phasor/base/simple_units.py: fitter_parameter"]}
{"id": "C130", "title": "Fit parameters are unique and roots keep their half plane", "statement": "parameter_add refuses a parameter whose place is that of another parameter, above or below it; with preserve_plane the bounds of a root keep it in its half plane and always allow its initial value.", "quantifier": "all sequences of parameters, all roots", "why_tests_cant": "for all sequences of keys", "anchors": ["phasor/fitting/casadi/fitter.py: parameter_add", "phasor/signals/ZPSOS.py: add_fit"]}
{"id": "C131", "title": "A mounted piezo obeys the linear piezoelectric law", "statement": "Between its voltage V, charge Q, force G and displacement D the couplings of a piezo impose Q = C V + d G and D = d V + G / k, whatever the waves, and the two cross couplings are reciprocal.", "quantifier": "all waves, impedances, constants and frequencies with a nonzero determinant", "why_tests_cant": "for all waves and constants", "anchors": ["phasor/transducers/PZT.py: PZTMountedGrounded"]}
{"id": "C132", "title": "A polarizing beamsplitter transmits one polarization and reflects the other", "statement": "Each polarization passes or is reflected at each of the four ports with the amplitudes of its power defects and losses, without mixing polarizations; without defects and losses one polarization is transmitted and the other reflected; positive losses are allowed.", "quantifier": "all fields, keys, defects and losses", "why_tests_cant": "for all fields and defects", "anchors": ["phasor/optics/polarization.py: PolarizingBeamsplitter", "phasor/optics/selective_mirrors.py: PolarizingMirror"]}
{"id": "C133", "title": "A Faraday isolator passes light forwards and nothing backwards", "statement": "Of light in the passing polarization the isolator transmits all power forwards and none backwards, with the chosen input and output polarizations.", "quantifier": "all fields and keys, both polarizations", "why_tests_cant": "for all fields", "anchors": ["phasor/optics/faraday_isolator.py: FaradayIsolator"]}
{"id": "C134", "title": "A matrix filter applies its transfer functions", "statement": "A filter given by pairs of names and transfer functions makes one port per name and sends to each output the sum over its pairs of the transfer function times the input; it asks for the keys of each input at its outputs and back, up to the maximum frequency; a matrix amplifier multiplies its inputs by its matrix of gains.", "quantifier": "all pairs, names, transfer functions, keys and signals", "why_tests_cant": "for all filters and signals", "anchors": ["phasor/signals/mimo_filter.py: TransferFunctionMIMO", "phasor/signals/amplifiers.py: MatrixAmplifier", "phasor/system/system.py: classical_frequency_test_max"]}
{"id": "C135", "title": "The basic acousto-optic modulator shifts light by its drive and conserves power", "statement": "Light that passes from the front to the back is raised by the frequencies of the drive and lowered on the way back, with the amplitudes of the drive over the root of twice its mean square; all its power leaves, whatever the drive; the way back is the adjoint of the way forth; raising fields stay the conjugates of lowering fields.", "quantifier": "all fields, keys, drives and both directions", "why_tests_cant": "for all fields and drives", "anchors": ["phasor/optics/AOMBasic.py: AOMBasic"]}
{"id": "C136", "title": "A homodyne detector measures the quadratures of light against its oscillator", "statement": "The outputs of a homodyne detector are at each frequency the beats of the light with the oscillator, times the exponential of the phase and conjugated, over the root of the power of the oscillator; the two quadratures give both products back, turn into each other with the phase, are real for real light, are the root of the power and zero for light that is its own oscillator; the light passes unchanged; as signals they are the product of light and oscillator at all times; the total power is the sum of the squares of the fields.", "quantifier": "all fields, keys, phases, frequencies and ports", "why_tests_cant": "for all fields, oscillators and phases", "anchors": ["phasor/optics/hidden_variable_homodyne.py: HiddenVariableHomodynePD", "phasor/optics/hidden_variable_homodyne.py: TotalDCPowerPD"]}
{"id": "C137", "title": "A fitted beam has the measured widths", "statement": "The function fitted to measured widths is the width of the fitted beam at each place times the root of `m2`, narrowest at the place opposite to the first parameter; widths at three places determine the beam, so that a least-squares fit of exact widths returns it exactly; the first guess has the narrowest measured radius and the mean of the places of the narrowest four; the first fit, of the points on one side of the narrowest, has at least two points; a target gives the same beam at each of its places, for every combination of directions; diameters in micrometres and places in inches are converted to metres.", "quantifier": "all widths, places, wavelengths, directions and least-squares methods", "why_tests_cant": "for all widths and places", "anchors": ["phasor/alm/beam_fit.py: QFit", "phasor/alm/beam_fit.py: QFitBeamTarget"]}
{"id": "C138", "title": "Polarization after a round trip of a ring", "statement": "The matrix of the polarizations of a ring of `n` mirrors is orthogonal of determinant `(-1) ^ n`: a rotation for an even and a mirror image for an odd number; the polarization defect is the power in the other polarization; if the mirrors are in a plane nothing is mixed; for an even number of mirrors the defect is the same from whichever mirror on; a ring that is enlarged, turned or moved has the same matrix, and a mirrored one rotates in the other sense; there is a matrix unless positions coincide, a beam goes straight on at a mirror or comes straight back at the first.", "quantifier": "all numbers and positions of mirrors", "why_tests_cant": "for all positions", "anchors": ["phasor/optics/tools/polizarization_circulation.py: polarization_circulation", "phasor/optics/tools/polizarization_circulation.py: reflect_through"]}
{"id": "C139", "title": "Controllers are products of their parts", "statement": "The response of a product or quotient of zeros, poles and gains is the product or quotient of the responses; the four boosts have gain one at their `F_center`, whatever the designs they are made of, have the shape of the same filter at any other `F_center`, and are there and stable if the designs are stable; roots in conjugate pairs, none zero or almost real, are kept by the conversion to a rational filter, whose response is that of the controller over its magnitude at `UGF` up to a fixed sign; a filter shifted to a frequency is the product of the filters moved up and down; `UGF` is a unity gain frequency of the controllers.", "quantifier": "all roots, gains, frequencies and designs", "why_tests_cant": "for all lists of roots and frequencies", "anchors": ["phasor/signals/power_loops.py: zpk_mult", "phasor/signals/power_loops.py: zpk_convert", "phasor/signals/power_loops.py: ledge_boost", "phasor/signals/power_loops.py: shift_to"]}
{"id": "C140", "title": "Transformers obey the law of coupled inductors", "statement": "At every frequency the voltages and currents of the windings of a transformer obey V = Z I with Z11 = R1 + i w L1, Z22 = R2 + i w L2 and Z12 = Z21 = i w sqrt(L1 L2), so that an open secondary has sqrt(L2/L1) times the voltage of the primary; each winding with a resistance has a Johnson noise of 4 k T R at its own port; the same holds for a transformer in series.", "quantifier": "all inductances, resistances, frequencies and waves", "why_tests_cant": "for all waves, windings and frequencies", "anchors": ["phasor/electronics/passive.py: Transformer", "phasor/electronics/passive.py: TransformerSeries"]}
{"id": "C141", "title": "Noise and gain of vendor amplifiers", "statement": "The noise spectra of the amplifiers are even in the frequency, fall with it and lie between the white level and the white level with a term of one over the frequency, with the named density at 1 Hz, and are defined at every frequency; the gains are conjugate at negative frequencies, have the magnitude of a single pole whatever the delay, and are one at a single positive frequency.", "quantifier": "all frequencies and amplifiers", "why_tests_cant": "for all frequencies", "anchors": ["phasor/electronics/models/vendor_opamps.py"]}
{"id": "C142", "title": "The basic acousto-optic modulator asks for the keys of its couplings", "statement": "Whatever the order of the worklist, when it ends every node that a coupling of the basic modulator drives is a node of the system, the light that it turns into light of an output is looked for at the input, every key is within the order limits, no exception is raised, and it ends if the order limits leave finitely many frequencies; it asks for no drive that its light could not be shifted by.", "quantifier": "all systems with such modulators, all orders of the worklist, all executions", "why_tests_cant": "for all systems and worklist orders", "anchors": ["phasor/optics/AOMBasic.py: AOMBasic.system_setup_ports"]}
{"id": "C143", "title": "The acousto-optic modulator asks for the keys of its equations", "statement": "Whatever the order of the worklist, when it ends the two inputs of a side of the modulator and the two outputs behind them have the same keys, every node that its differential equations take light from or send it to is a node of the system, every key is within the order limits, no exception is raised, and it ends if the order limits leave finitely many frequencies.", "quantifier": "all systems with such modulators, all orders of the worklist, all executions, all split frequencies that are not negative", "why_tests_cant": "for all systems and worklist orders", "anchors": ["phasor/optics/AOM.py: AOM.system_setup_ports", "phasor/optics/AOM.py: AOM.system_setup_coupling"]}
{"id": "C144", "title": "Homodyne detectors ask for the keys of their couplings", "statement": "Whatever the order of the worklist, when it ends a homodyne detector has at all its outputs every beat within the order limits of the fields at its front and its oscillator, conjugate keys come together, its power detectors never add to a set that they go over, it sets up its couplings without an exception, every node that they take light from, norm it by or give a signal to is a node of the system, and the keys do not depend on the order of the worklist.", "quantifier": "all systems with such detectors, all orders of the worklist, all executions", "why_tests_cant": "for all systems and worklist orders", "anchors": ["phasor/optics/hidden_variable_homodyne.py: HiddenVariableHomodynePD.system_setup_ports", "phasor/optics/hidden_variable_homodyne.py: TotalDCPowerPD.system_setup_ports", "phasor/optics/hidden_variable_homodyne.py: ports_fill_2optical_2classical_hdyne"]}
{"id": "C145", "title": "Waists are described once and where the beam has them", "statement": "A space describes a waist exactly when the place where the beam has no real part is inside, and the same one from either end; each space of a layout is gathered once, at the end that faces the target whose beam is taken and with the beam there.", "quantifier": "all layouts, lengths, indices and beams", "why_tests_cant": "for all layouts and beams over an ordered field", "anchors": ["phasor/alm/space.py: Space", "phasor/alm/measurements.py: Measurements"]}
{"id": "C146", "title": "The constraints of a layout keep its order", "statement": "The constraints gathered from a layout are met if and only if no length in it is negative, and then nothing that comes later in the light is further to the left; a system has the constraints of its layout.", "quantifier": "all layouts", "why_tests_cant": "for all nested layouts", "anchors": ["phasor/alm/space.py: Space", "phasor/alm/system.py: System", "phasor/alm/measurements.py: Measurements"]}
{"id": "C147", "title": "Functions are dispatched on the type of their argument", "statement": "A dispatched function is that of the first module that has it, of the modules registered for the type of the argument, or else for the longest registered beginning of the name of its module, and then the defaults; it raises exactly when none has it; earlier calls do not change what is called; python's numbers go to the modules that the table names for them; a value is taken for zero exactly when all its parts are, its symbolic type is the first that its parts have, and conjugation negates imaginary parts.", "quantifier": "all tables, types, names and sequences of calls", "why_tests_cant": "for all registrations and all histories of calls", "anchors": ["phasor/math/dispatched.py: generate_dispatched", "phasor/math/dispatched.py: zero_check_heuristic", "phasor/math/dispatched.py: check_symbolic_type", "phasor/math/dispatch_defaults.py: conjugate"]}
{"id": "C148", "title": "The transimpedance amplifier amplifies the photocurrent and its noises as the circuit does", "statement": "For every capacitance, resistance and gain g of the amplifier, the reading V of the transimpedance amplifier fulfils V (1 + g + sRC) = -g (R (i + i_n) + (1 + sRC) v_n - v_R), where i is the current of the photodiode, i_n and v_n are the noises of the inverting input and v_R is that of the resistor when Johnson noise is included; the current noise of the other input is not read.", "quantifier": "all values of the elements, frequencies, impedances, completions of bonds and fields that solve the equations", "why_tests_cant": "for all solutions of the solved system and not for single responses", "anchors": ["phasor/electronics/models/PDAmp.py: PDTransimpedance.__build__", "phasor/electronics/opamps.py: OpAmp", "phasor/electronics/passive.py: SeriesResistor"]}
{"id": "C149", "title": "A driven mechanical port applies its force and nothing else", "statement": "The driven port of a mirror acts on what it is bonded to with the force of its input, as a source of force does: the force into the port is minus that force for every displacement, a mass, spring or damper of mobility Y bonded to it is displaced by f / Y, a port without a force is free; the displacement of the port is read at its output; a port terminated by the ground does not move.", "quantifier": "all forces, impedances, elements, frequencies and fields", "why_tests_cant": "for all solutions and not for single responses", "anchors": ["phasor/mechanical/ports_driven.py: ForceToDisplacementBase.system_setup_coupling", "phasor/mechanical/ports_driven.py: MechanicalPortDriven", "phasor/optics/mirror.py: Mirror.Z"]}
{"id": "C150", "title": "Projected targets follow the beam", "statement": "The target of an element of a layout is the place of the element; a beam projected along any chain of targets, in any order and direction, is the beam of the first target followed straight to the last; projected back to the place it came from it is the same beam; elements in mounts have targets as others.", "quantifier": "all layouts, nested to any depth, all chains of targets and all beams over the reals", "why_tests_cant": "for all chains and nestings; no test projects a beam", "anchors": ["phasor/alm/projected_target.py: BeamTargetProjected.beam_q", "phasor/alm/bases.py: MatrixAtsBase.as_target", "phasor/alm/system.py: System._target_to_child", "phasor/alm/mounts.py: MountBase"]}
{"id": "C151", "title": "A squeezer has nodes for all its couplings, and its loss adds vacuum", "statement": "When the keys of a system are settled, in whatever order, every key at an input of an EZSqz is found at the output of the other side with its reflection about the center and at its loss port, every key at an output has what makes it at the inputs, all nodes that its couplings join exist, the vacuum of the loss is coupled to the squeezed light at all its keys, and the keys are within the order limits.", "quantifier": "all systems, orders of the worklist, keys and centers", "why_tests_cant": "for all orders and systems; the only test of the element is skipped", "anchors": ["phasor/optics/EZSqz.py: EZSqz.system_setup_ports", "phasor/optics/EZSqz.py: EZSqz.system_setup_coupling"]}
{"id": "C152", "title": "A nonlinear crystal finds all light that its light can make", "statement": "When the keys of a system are settled, in whatever order, both sides of a NonlinearCrystal have the same keys, with any two keys of one polarization the sum (of like) or difference (of unlike quantum keys) is at the input and the output if it is within the order limits, the conjugates are there too, and the crystal sets up its equations for all these keys without an exception.", "quantifier": "all systems, orders of the worklist, keys and order limits", "why_tests_cant": "for all orders and systems; the tests have one laser and one crystal", "anchors": ["phasor/optics/nonlinear_crystal.py: NonlinearCrystal.system_setup_ports", "phasor/system/system.py: reject_optical_frequency_order"]}
{"id": "C153", "title": "Fits of transfer functions are exact only where the readout is the data", "statement": "The residual that TransferACExpression minimizes is never negative, does not depend on the units of readout and data, leaves out the points whose SNR is below the limit, and is 0 only if the readout equals the data at all other points (for the model magnitude, only if the magnitudes are equal).", "quantifier": "all lists of points, complex readouts and data, weights, limits and residual models", "why_tests_cant": "for all complex values; there is no test that the fit is unique", "anchors": ["phasor/fitting/casadi/transfer_functions.py: TransferACExpression.function"]}
{"id": "C154", "title": "A fit with jittered parameters minimizes the mean over all single and double jitters", "statement": "What FitterExpression minimizes is the mean of the expression itself, of the expression with each jittered parameter moved by each of its transforms, and of the expression with each two different parameters moved by each of their transforms; it does not depend on the order of the parameters, is the expression itself without jitter, and vectors of symbols come apart as they were put together.", "quantifier": "all expressions, numbers of parameters, transforms and values", "why_tests_cant": "for all expressions and lists of transforms; the tests jitter a single parameter", "anchors": ["phasor/fitting/casadi/expressions.py: FitterExpression.expression_remapped", "phasor/fitting/casadi/symbolics.py: FitterSymJitterPlacement.transforms", "phasor/fitting/casadi/base.py: casadi_sparsity_unravel"]}
{"id": "C155", "title": "A fit gives every parameter its part of the solution", "statement": "The lists of symbols, starting values, types and bounds that a fit makes have equal lengths and no symbol twice; from any vector that the solver returns each real parameter gets its entry and each complex parameter its two entries, without an exception, and the starting values give the starting values; all bounds are numbers or infinities, and each parameter is in the list of bunches once.", "quantifier": "all lists of real and complex parameters, bounds and solutions", "why_tests_cant": "for all numbers and mixtures of parameters; the tests have no complex parameters with bounds", "anchors": ["phasor/fitting/casadi/symbolics.py: FitterSym.fitter_symbol_map", "phasor/fitting/casadi/fitter.py: FitterRoot.symbol_map", "phasor/fitting/casadi/expressions.py: FitterExpression.minimize_function"]}
{"id": "C156", "title": "Plotted phases are phases of the transfer function", "statement": "The phases that the plots show differ from the arguments of the transfer function by full turns only, neighbouring points by at most half a turn, and with a center the phase there is at least 0 and less than a turn; numbers and arrays give the same phase.", "quantifier": "all arrays of complex numbers, centers and options", "why_tests_cant": "for all values and lengths of arrays; plots are only looked at", "anchors": ["phasor/utilities/plots/loops_and_budgets.py: angle"]}

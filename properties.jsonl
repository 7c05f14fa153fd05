{"id": "C01", "title": "Homogeneous Hilbert indexing is a bijection in lexicographic order", "statement": "For an unconstrained homogeneous Hilbert space with any strictly sorted list of d>=1 local values and any number N of sites, numbers_to_states maps 0..d^N-1 one-to-one onto the valid configurations, states_to_numbers is its two-sided inverse, and numbering agrees with the lexicographic order of configurations (first site most significant).", "quantifier": "every local dimension, every list of local values, every number of sites, every index and every valid configuration", "why_tests_cant": "the state space is exponential in N and N, d are unbounded; tests sample a few small spaces", "anchors": ["netket/hilbert/hilbert_index.py: HilbertIndex", "netket/hilbert/homogeneous.py: HomogeneousHilbert._numbers_to_states/_states_to_numbers"]}
{"id": "C02", "title": "Constrained Hilbert spaces enumerate exactly the allowed states", "statement": "For a homogeneous space with an arbitrary constraint, all_states lists every configuration satisfying the constraint exactly once, in lexicographic order, and states_to_numbers/numbers_to_states are mutually inverse on it.", "quantifier": "every constraint predicate, local dimension, number of sites, index and configuration", "why_tests_cant": "constraint functions are arbitrary user callables; no finite set of them covers the quantifier", "anchors": ["netket/hilbert/homogeneous.py: _get_hilbert_index, _gen_to_bare_numbers, _to_constrained_numbers_kernel"]}
{"id": "C03", "title": "TensorHilbert indexing is a bijection compatible with its factors", "statement": "For a product of discrete spaces, the index of a concatenated configuration is the mixed-radix combination of the factor indices, and states_to_numbers and numbers_to_states are mutually inverse on 0..prod(n_states)-1.", "quantifier": "every list of factor spaces with consistent index maps, every index and configuration", "why_tests_cant": "arbitrary numbers and sizes of factors", "anchors": ["netket/hilbert/tensor_hilbert.py: TensorHilbert._numbers_to_states/_states_to_numbers"]}
{"id": "C04", "title": "DoubledHilbert indexes (row, column) pairs consistently with density matrices", "statement": "In a doubled space, index = row*n_states + column, both halves are recovered by numbers_to_states, and size_at_index of site i equals the physical space's local dimension at i mod size.", "quantifier": "every physical space, every pair of indices, every site", "why_tests_cant": "unbounded spaces; the inhomogeneous case is an interaction of two classes", "anchors": ["netket/hilbert/doubled_hilbert.py: DoubledHilbert", "netket/nn/utils.py: to_matrix"]}
{"id": "C05", "title": "Too large indices and wrong-size states are rejected", "statement": "numbers_to_states raises for every number >= n_states and states_to_numbers raises for every configuration of the wrong length.", "quantifier": "every natural number, every space", "why_tests_cant": "quantifies over all integers", "anchors": ["netket/hilbert/discrete_hilbert.py: numbers_to_states, states_to_numbers"]}
{"id": "C06", "title": "flip_state changes exactly the requested site to a different valid local state", "statement": "For every valid configuration and site, flip_state returns a configuration that is again valid site by site, differs from the input at that site and only there, and reports the old value; every other local value is reachable for some random draw.", "quantifier": "Spin, Fock, Qubit, CustomHilbert with increasing local states, products of them, doubled homogeneous spaces; every configuration, site and random draw", "why_tests_cant": "random draws and spaces are unbounded", "anchors": ["netket/hilbert/random/*.py: flip_state_scalar"]}
{"id": "C07", "title": "Random states of a constrained space satisfy the constraint", "statement": "random_state of a Fock space with n_particles (n_max finite) has total n_particles and every occupation in 0..n_max; random_state of a Spin space with total_sz has the required magnetisation and valid local values.", "quantifier": "every number of sites, cut-off, particle number and every sequence of random draws", "why_tests_cant": "all random sequences", "anchors": ["netket/hilbert/random/fock.py", "netket/hilbert/random/spin.py"]}
{"id": "C08", "title": "Partial trace of a Hilbert space keeps the right sites", "statement": "ptrace(sites) of Fock/Spin/Tensor spaces for distinct sites is the space of the remaining sites: its size is size minus the number of removed sites and its local dimensions are those of the kept sites in order; tracing everything gives None; it always returns on unconstrained finite Spin/Fock/Qubit products, and sites outside the space are rejected.", "quantifier": "every space and every list of distinct sites", "why_tests_cant": "arbitrary nested products", "anchors": ["netket/hilbert/tensor_hilbert.py: ptrace", "netket/hilbert/fock.py: ptrace", "netket/hilbert/spin.py: ptrace"]}
{"id": "C09", "title": "Powers and products of Hilbert spaces behave like tensor powers and products", "statement": "Whenever (hi ** n) returns it has n*size sites and n_states^n states; whenever (a * b) returns it has the concatenated local dimensions and n_states product; on unconstrained finite Spin/Fock/Qubit products both always return.", "quantifier": "every space and exponent", "why_tests_cant": "unbounded sizes", "anchors": ["netket/hilbert/discrete_hilbert.py: __mul__", "netket/hilbert/fock.py: __pow__", "netket/hilbert/spin.py: __pow__", "netket/hilbert/tensor_hilbert.py: __mul__"]}
{"id": "C10", "title": "LocalOperator connected elements are the matrix elements of the sum of its local terms", "statement": "For every configuration x and x', the sum of the matrix elements returned by get_conn(x) at x' equals the constant times delta(x,x') plus the sum over the local terms of the local matrix entry when x and x' agree off the term's support (zero otherwise).", "quantifier": "every list of local terms, supports, matrices over any commutative ring, every local dimension and configuration", "why_tests_cant": "operators and configurations are unbounded", "anchors": ["netket/operator/_local_operator.py: _append_matrix, _get_conn_flattened_kernel, get_conn_flattened"]}
{"id": "C11", "title": "The order in which acting_on is listed does not matter", "statement": "LocalOperator(hi, M, acting_on) with permuted acting_on and correspondingly permuted M represents the same operator whenever the listed sites have equal local dimension or the list is sorted: terms are canonicalised to sorted support without changing the matrix elements.", "quantifier": "every support order of sites of equal local dimension, every matrix", "why_tests_cant": "all permutations and dimensions", "anchors": ["netket/operator/_local_operator.py: _reorder_kronecker_product, _add_operator"]}
{"id": "C12", "title": "Sums, differences and scalar multiples of local operators act linearly", "statement": "The matrix of A+B, A-B, A+c, c*A is the corresponding combination of the matrices of A and B, whatever the overlap of their supports.", "quantifier": "all pairs of operators, supports and scalars", "why_tests_cant": "unbounded operator families", "anchors": ["netket/operator/_local_operator.py: __iadd__, __imul__, _add_operator, __add_new_operator__"]}
{"id": "C13", "title": "Product of local operators is the matrix product", "statement": "On spaces with equal local dimensions the matrix of A@B (and of A after A@=B) is the product of the matrices of A and B, including the constant parts and overlapping supports.", "quantifier": "all pairs of operators on spaces with equal local dimensions", "why_tests_cant": "unbounded", "anchors": ["netket/operator/_local_operator.py: _concrete_imatmul_, _multiply_operator"]}
{"id": "C14", "title": "Building or combining operators never changes other operators or user arrays", "statement": "copy, transpose, conjugate, A+B, z*A, -A, A/z leave every existing array and operator unchanged in every reachable heap, and A+=B with an operator A that shares no buffer changes only A.", "quantifier": "every reachable heap and operands", "why_tests_cant": "aliasing only shows after particular histories", "anchors": ["netket/operator/_local_operator.py: __init__, _add_operator, __iadd__, __imul__, copy"]}
{"id": "C15", "title": "is_hermitian never claims a non-hermitian operator is hermitian", "statement": "If op.is_hermitian is True then the represented matrix equals its conjugate transpose, for every history of constructors, sums, products with real scalars and real constants; for PauliStrings always.", "quantifier": "every construction and arithmetic history with self-adjoint scalars and constants", "why_tests_cant": "all operator expressions", "anchors": ["netket/operator/_local_operator.py: __init__, __mul__, __iadd__, _concrete_imatmul_"]}
{"id": "C16", "title": "Lazy adjoint, transpose, conjugate and square wrappers denote what they say", "statement": "Every wrapper expression built from transpose, H, conj and squares has the matrix it denotes (to_sparse), transpose() of any expression is the transposed matrix; T, conj, conjugate(concrete=False), H (except of a transposed square), collect of wrappers around concrete operators and @ of concrete operators and wrappers around them, whenever they return, denote transpose, conjugate, adjoint, the same matrix and the product.", "quantifier": "all nestings of the wrappers, with the stated exceptions", "why_tests_cant": "unbounded nesting", "anchors": ["netket/operator/_lazy.py: Transpose, Adjoint, Squared", "netket/operator/_abstract_operator.py: H, T, conjugate, __matmul__"]}
{"id": "C17", "title": "max_conn_size bounds the number of connected elements and padding preserves them", "statement": "get_conn_padded contains exactly the connected elements followed by entries with zero matrix element, all rows of equal length (LocalOperator, PauliStrings, BoseHubbard); max_conn_size bounds the number of entries per row for every LocalOperator returned by the constructor with at least one term, or without diagonal entry.", "quantifier": "every operator and configuration batch, with the stated restriction of the bound", "why_tests_cant": "worst-case row must be covered", "anchors": ["netket/operator/_local_operator.py: max_conn_size, _get_conn_flattened_kernel", "netket/operator/_abstract_operator.py: get_conn_padded"]}
{"id": "C18", "title": "Batched connected elements are the concatenation of single-configuration results", "statement": "get_conn_flattened on a batch returns, row after row, the result of each configuration alone, and sections are the running totals of the row counts, so that splitting at sections recovers every row; n_conn equals the row lengths.", "quantifier": "every batch and operator", "why_tests_cant": "all batch sizes", "anchors": ["netket/operator/_local_operator.py: _get_conn_flattened_kernel", "netket/operator/_abstract_operator.py: n_conn", "netket/operator/_pauli_strings.py", "netket/operator/_hamiltonian.py"]}
{"id": "C19", "title": "to_sparse/to_dense agree with get_conn and with applying the operator", "statement": "Entry (i,j) of to_dense is the sum of the matrix elements from state i to state j, and applying the operator to a vector equals multiplication with that matrix, for operators whose connected configurations stay in the space.", "quantifier": "every operator that stays in its indexable space", "why_tests_cant": "matrix sizes unbounded", "anchors": ["netket/operator/_abstract_operator.py: to_sparse, to_dense, to_linear_operator"]}
{"id": "C20", "title": "PauliStrings represent the weighted sum of Pauli products", "statement": "For every list of strings over I,X,Y,Z and weights, the connected elements of sigma give exactly the matrix of sum_k w_k P_k, including the phases of Y.", "quantifier": "every number of qubits, strings, weights and configurations", "why_tests_cant": "4^N strings", "anchors": ["netket/operator/_pauli_strings.py: PauliStrings, _flattened_kernel"]}
{"id": "C21", "title": "Ising Hamiltonian rows equal the operator J sum szsz - h sum sx", "statement": "For every graph, h and J, get_conn of x returns x with energy J*sum x_i x_j and each single flip with -h, which is the matrix of the corresponding sum of local operators; n_conn is N+1 for every x.", "quantifier": "every graph and configuration", "why_tests_cant": "all graphs", "anchors": ["netket/operator/_hamiltonian.py: Ising"]}
{"id": "C22", "title": "BoseHubbard conserves particles, respects the cut-off and stays within max_conn_size", "statement": "On graphs without self loops the connected elements of BoseHubbard are the documented matrix, which is symmetric; every connected configuration keeps the total occupation and stays in 0..n_max, and at most 1+2|E| are returned.", "quantifier": "every graph without self loops, cut-off, parameters and configuration", "why_tests_cant": "all graphs and occupations", "anchors": ["netket/operator/_hamiltonian.py: BoseHubbard"]}
{"id": "C23", "title": "Lindbladian matrix elements, trace and hermiticity preservation", "statement": "When every operator announces enough room (max_conn_size), the batches returned by get_conn_flattened of a LocalLiouvillian are the matrix of rho -> -i(Hnh rho - rho Hnh†) + sum L rho L†, so that for hermitian H the trace of L(rho) vanishes for every rho and L(rho†)=L(rho)†; jump operators may be added later; get_conn returns the same for pairs whose two rows of Hnh have equal length.", "quantifier": "every Hamiltonian, jump operators with enough room, density matrix and dimension", "why_tests_cant": "continuous inputs, all dimensions", "anchors": ["netket/operator/_local_liouvillian.py: LocalLiouvillian"]}
{"id": "C24", "title": "Hamiltonian objects multiply in the order written", "statement": "For special Hamiltonians (Ising, BoseHubbard...) and any local operator B, B @ H and H @ B denote the matrix products in that order.", "quantifier": "all operators", "why_tests_cant": "non-commuting pairs", "anchors": ["netket/operator/_hamiltonian.py: SpecialHamiltonian._op__rmatmul__"]}
{"id": "C25", "title": "GraphOperator is the sum of its site and bond terms over the graph", "statement": "GraphOperator with site operators and bond operators with colours, or with exactly one bond operator without colours, matrices given by value, has the matrix sum over nodes of site terms plus sum over matching edges of bond terms; Heisenberg has the documented matrix; no operators at all, a graph of another size or a list of colours of another length raise ValueError.", "quantifier": "every graph, colouring and operator list of this form", "why_tests_cant": "all graphs", "anchors": ["netket/operator/_graph_operator.py: GraphOperator"]}
{"id": "C26", "title": "History keeps every appended value in order", "statement": "Appending items with the keys of the history and an explicit time, or histories with the same keys, keeps every entry and its order; histories accumulated from logs in which every key keeps its kind show exactly the logged times and values; indexing and slicing return the corresponding entries; wrong keys of histories and wrong indices are rejected.", "quantifier": "every sequence of such items, all indices and slices", "why_tests_cant": "arbitrary append histories", "anchors": ["netket/utils/history.py: History, append, accum_in_tree"]}
{"id": "C27", "title": "JsonLog never holds back more than write_every entries", "statement": "At any point during a run the file on disk equals the history as of the last flush, at most write_every-1 entries are missing from it, and after flush it equals the whole history.", "quantifier": "every write_every and sequence of log calls and flushes", "why_tests_cant": "all call histories", "anchors": ["netket/logging/json_log.py: JsonLog"]}
{"id": "C28", "title": "A crash while logging never loses previously flushed data", "statement": "If the process stops at any point of a flush, the file still contains either the previous or the new complete log.", "quantifier": "every crash point of every flush", "why_tests_cant": "needs crash injection at every write", "anchors": ["netket/logging/json_log.py: JsonLog._flush_log"]}
{"id": "C29", "title": "StateLog writes every k-th state to a fresh name", "statement": "With save_every=k the states of calls 0,k,2k,... are stored under consecutive numbers and no earlier file is overwritten: in mode 'write' from number 0, in mode 'append' on a target with files after the largest existing number, in mode 'fail' on a new folder from number 0.", "quantifier": "every call count and prior directory content with numbered files", "why_tests_cant": "all histories", "anchors": ["netket/logging/state_log.py: StateLog"]}
{"id": "C30", "title": "A driver performs exactly the requested number of updates", "statement": "run(n_iter, step) / iter perform turns 0..⌈n_iter/step⌉-1 unless stopped by a callback, each logging the state before its updates and performing step updates, so that step_count counts the updates performed; advance(n) performs exactly n.", "quantifier": "every n_iter, step, callback behaviour and logger", "why_tests_cant": "all schedules of callbacks", "anchors": ["netket/driver/abstract_variational_driver.py: iter, run, advance"]}
{"id": "C31", "title": "EarlyStopping: exact condition", "statement": "The callback returns False (stop) exactly when the loss is at most the baseline, or at least `patience` steps passed since the last call that was at least as good as all before it and the present loss is larger than the loss of that call minus min_delta.", "quantifier": "every sequence of losses and parameters", "why_tests_cant": "all loss histories", "anchors": ["netket/callbacks/earlystopping.py: EarlyStopping"]}
{"id": "C32", "title": "Timeout stops a run at the first call after the limit", "statement": "Timeout returns True for every call within `timeout` seconds of the first call and False afterwards.", "quantifier": "every sequence of clock readings", "why_tests_cant": "all schedules", "anchors": ["netket/callbacks/timeout.py: Timeout"]}
{"id": "C33", "title": "Preconditioner restart policy follows its documentation", "statement": "With solver_restart=False the previous solution is used as the starting point of the next linear solve, with True every solve starts fresh.", "quantifier": "every sequence of gradients and solvers", "why_tests_cant": "history-dependent", "anchors": ["netket/optimizer/preconditioner.py: LinearPreconditioner"]}
{"id": "C34", "title": "Lattice site numbering is a bijection with basis coordinates", "statement": "For every extent and number of basis sites, the site ids produced from (cell coordinates, basis index) are 0..n_sites-1, one-to-one, row-major, and id_from_basis_coords inverts basis_coords.", "quantifier": "every dimension, extent and basis", "why_tests_cant": "unbounded dimensions", "anchors": ["netket/graph/lattice.py: create_sites, id_from_basis_coords, id_from_position"]}
{"id": "C35", "title": "Grid edges are exactly the nearest neighbour pairs", "statement": "Grid(extent, pbc), with a direction longer than one site or periodic, connects two sites iff they differ by one unit along exactly one direction (modulo the extent on periodic axes), each edge is listed once and there are no loops.", "quantifier": "every dimension, positive extent and boundary condition other than a single open site", "why_tests_cant": "unbounded", "anchors": ["netket/graph/common_lattices.py: Grid", "netket/graph/lattice.py: create_sites, get_edges, get_true_edges"]}
{"id": "C36", "title": "Graph reports the edges and colours it was given", "statement": "Graph(edges) has exactly the given undirected edges with their colours, each edge accessible through edges(return_color, filter_color), symmetric adjacency lists, and inconsistent edge lists are rejected; Edgeless(n) has n nodes and no edges.", "quantifier": "every edge list", "why_tests_cant": "all graphs", "anchors": ["netket/graph/graph.py: Graph, _clean_edges, DoubledGraph"]}
{"id": "C37", "title": "A lattice has all its sites as nodes", "statement": "Every lattice has n_nodes equal to the number of unit cells times the number of basis atoms.", "quantifier": "every lattice", "why_tests_cant": "boundary cases", "anchors": ["netket/graph/lattice.py: Lattice.__init__"]}
{"id": "C38", "title": "Permutation products compose as maps", "statement": "For permutations p,q of a PermutationGroup, (p@q)(x) = p(q(x)) for every array x and the product's array representation agrees; whenever a product of semigroup elements is formed it acts as the composed map, in any bracketing; products of elements other than Identity() are always formed.", "quantifier": "all permutations and arrays", "why_tests_cant": "n! permutations", "anchors": ["netket/utils/group/_permutation_group.py: product", "netket/utils/group/_semigroup.py: Composite"]}
{"id": "C39", "title": "Group inverse and product tables are correct", "statement": "For a closed permutation group without duplicates, inverse[i] is the index of the inverse of element i and product_table[g,h] is the index of g^{-1}h; an unclosed set is rejected.", "quantifier": "every permutation set", "why_tests_cant": "n! group orders", "anchors": ["netket/utils/group/_permutation_group.py: inverse, product_table", "netket/utils/group/_group.py"]}
{"id": "C40", "title": "remove_duplicates keeps one representative of every element", "statement": "remove_duplicates returns the distinct elements in first-occurrence order; the returned inverse indices refer to the distinct canonical forms in lexicographic order.", "quantifier": "every list of elements", "why_tests_cant": "all lists", "anchors": ["netket/utils/group/_group.py: FiniteGroup.remove_duplicates", "netket/utils/group/_permutation_group.py: remove_duplicates"]}
{"id": "C41", "title": "Conjugacy classes partition the group", "statement": "conjugacy_classes rows are disjoint, cover the group, and each row is closed under conjugation and contains conjugates of its representative only; inverse map returns the class of each element.", "quantifier": "every finite group", "why_tests_cant": "all groups", "anchors": ["netket/utils/group/_group.py: conjugacy_table, conjugacy_classes"]}
{"id": "C42", "title": "Point-group affine maps compose and invert", "statement": "For point-group symmetries given by a matrix and translation, product, preimage and change_origin satisfy the group laws on every coordinate vector.", "quantifier": "all matrices, vectors, dimensions", "why_tests_cant": "continuous inputs", "anchors": ["netket/utils/group/_point_group.py: PGSymmetry"]}
{"id": "C43", "title": "Little-group irreps lift to complex characters unchanged", "statement": "Characters of little-group irreps embedded in the full point group equal the character table entries on the little group and zero elsewhere.", "quantifier": "every group", "why_tests_cant": "all groups with complex characters", "anchors": ["netket/graph/space_group.py: _little_group_irreps"]}
{"id": "C44", "title": "Metropolis transitions satisfy detailed balance", "statement": "For every strictly positive unnormalised density and every proposal reported with its log correction, the acceptance rule makes the chain reversible with respect to the density, hence stationary; in particular with local moves on spaces with sorted local states and with exchange moves.", "quantifier": "every finite state space, density and proposal kernel", "why_tests_cant": "distributional statement over all densities", "anchors": ["netket/sampler/metropolis.py: _sample_next", "netket/sampler/rules/local.py", "netket/sampler/rules/exchange.py", "netket/sampler/rules/hamiltonian.py"]}
{"id": "C45", "title": "Exchange moves conserve the constraint", "statement": "Every configuration proposed by the exchange rule for sites of the lattice is a permutation of the current one, hence keeps total magnetisation/particle number along whole chains; clusters contain exactly the pairs within d_max.", "quantifier": "all graphs, configurations and draws", "why_tests_cant": "all draws", "anchors": ["netket/sampler/rules/exchange.py: ExchangeRule, compute_clusters"]}
{"id": "C46", "title": "Acceptance statistics count the moves since the last reset", "statement": "For MetropolisSampler n_accepted <= n_steps always, both are zero after reset, and n_steps is the total number of proposed moves over all chains and ranks; the acceptance lies in [0,1].", "quantifier": "every sequence of sample/reset calls", "why_tests_cant": "all histories", "anchors": ["netket/sampler/metropolis.py: MetropolisSamplerState, _reset, _sample_next", "netket/sampler/metropolis_numpy.py: _reset, _sample_next"]}
{"id": "C47", "title": "Sampling a chain in pieces equals sampling it at once", "statement": "Drawing n then m samples from the returned state of a MetropolisSampler gives the same samples and final state as drawing n+m at once, also through the generator samples.", "quantifier": "every split and sampler kernel", "why_tests_cant": "all lengths", "anchors": ["netket/sampler/base.py: sample, sample_next, samples", "netket/sampler/metropolis_numpy.py: _sample_next"]}
{"id": "C48", "title": "Number of chains and samples is rounded up consistently", "statement": "n_chains is n_chains_per_rank*n_nodes >= requested, minimal such; MCState.n_samples is chain_length*n_chains >= requested with the minimal chain length, also through the per-rank setter; the numbers stay consistent under every call except assigning a sampler.", "quantifier": "all requested numbers and rank counts", "why_tests_cant": "all integers", "anchors": ["netket/sampler/base.py: Sampler.__pre_init__", "netket/vqs/mc_state.py: n_samples, n_samples_per_rank, chain_length, sampler"]}
{"id": "C49", "title": "Exact sampler draws from |psi|^machine_pow", "statement": "After reset the exact sampler's distribution is |psi|^pow normalised over the enumerated states and sample returns the corresponding states; successive calls of sample_next keep the distribution and never draw from a key twice.", "quantifier": "every machine and power", "why_tests_cant": "distribution over all machines", "anchors": ["netket/sampler/exact.py: ExactSampler", "netket/sampler/base.py: sample_next"]}
{"id": "C50", "title": "Inverse-CDF choice selects within range with the right probabilities", "statement": "batch_choice returns an index of the array, and the set of uniforms selecting index k is an interval of length p_k (relative to the total).", "quantifier": "every probability vector and uniform draw", "why_tests_cant": "continuous", "anchors": ["netket/sampler/autoreg.py: batch_choice"]}
{"id": "C51", "title": "Autoregressive states are normalised and directly sampled", "statement": "For every autoregressive network built from masked layers the sum over all configurations of |psi|^2 is 1 and the sampler's joint probability of a configuration is |psi|^2.", "quantifier": "all local dimensions, sizes and conditional functions", "why_tests_cant": "exponential sums", "anchors": ["netket/models/autoreg.py: ARNN", "netket/sampler/autoreg.py: ARDirectSampler"]}
{"id": "C52", "title": "Masked layers are autoregressive", "statement": "Output site t of exclusive masked dense/conv layers depends only on inputs at sites < t, of non-exclusive ones only on sites <= t, and stacks keep the property.", "quantifier": "all shapes, kernels, dilations and inputs", "why_tests_cant": "all shapes", "anchors": ["netket/nn/masked_linear.py: MaskedDense1D, MaskedConv1D, MaskedConv2D"]}
{"id": "C53", "title": "Hamiltonian rule reports the exact proposal ratio", "statement": "The Hamiltonian rule proposes each of the n(x) connected elements returned by the operator with probability 1/n(x) and reports log(n(x)/n(x')), making the move reversible when every pair of configurations is connected equally often in both directions.", "quantifier": "every operator with this symmetry of multiplicities", "why_tests_cant": "all operators", "anchors": ["netket/sampler/rules/hamiltonian.py"]}
{"id": "C54", "title": "Statistics do not depend on how samples are split over ranks", "statement": "For equally sized shards, mean, variance and sum across ranks equal those of the concatenated data, and so do the Monte Carlo statistics.", "quantifier": "every data set and number of ranks", "why_tests_cant": "all shardings", "anchors": ["netket/stats/mpi_stats.py: mean, sum, var, subtract_mean", "netket/utils/mpi/primitives.py"]}
{"id": "C55", "title": "to_array is independent of the number of ranks", "statement": "The normalised state vector returned by to_array is the same for every number of MPI ranks and has unit norm.", "quantifier": "every n_states and number of ranks", "why_tests_cant": "all rank counts", "anchors": ["netket/nn/utils.py: to_array"]}
{"id": "C56", "title": "Cached samples always belong to the current parameters", "statement": "MCState.samples returns samples drawn with the current parameters and sampler, after any sequence of setter, reset and sample calls; repeated access without changes returns the same samples; also for mixed states.", "quantifier": "every sequence of API calls", "why_tests_cant": "all call histories", "anchors": ["netket/vqs/mc_state.py: samples, reset, parameters", "netket/vqs/base.py: parameters, model_state, variables"]}
{"id": "C57", "title": "Mixed state and its diagonal share parameters", "statement": "After any sequence of assignments to parameters, model_state or variables of an MCMixedState, its diagonal state holds the same values.", "quantifier": "every sequence of assignments", "why_tests_cant": "all histories", "anchors": ["netket/vqs/mc_mixed_state.py: MCMixedState"]}
{"id": "C58", "title": "Serialising and restoring an MCState loses nothing", "statement": "Restoring a serialised state into a compatible state reproduces variables, sampler state, n_samples and n_discard, and leaves the original object unchanged.", "quantifier": "every state", "why_tests_cant": "all states", "anchors": ["netket/vqs/mc_state.py: serialize_MCState, deserialize_MCState"]}
{"id": "C59", "title": "expect_and_grad computes the covariance gradient", "statement": "For hermitian operators the gradient is the covariance of local energies with conjugated log-derivatives (real part for real parameters), independent of the sharding, invariant under adding a constant to the operator, and for log-amplitudes holomorphic in complex parameters it is the conjugate-coordinate gradient of the energy.", "quantifier": "all samples, operators, rank counts", "why_tests_cant": "all inputs", "anchors": ["netket/vqs/mc_state.py: grad_expect_hermitian, grad_expect_operator_Lrho2"]}
{"id": "C60", "title": "sample(n_discard) honours its argument", "statement": "MCState.sample(chain_length, n_discard) discards n_discard samples per chain and returns chain_length samples whatever the stored defaults.", "quantifier": "all arguments and defaults", "why_tests_cant": "all combinations", "anchors": ["netket/vqs/mc_state.py: sample"]}
{"id": "C61", "title": "Symmetrised layers are equivariant and RBMSymm is invariant", "statement": "For every permutation group, DenseSymm outputs are permuted (by group multiplication) when the input is permuted, and RBMSymm returns the same amplitude for all symmetry-related configurations.", "quantifier": "every group, kernel, bias and input", "why_tests_cant": "all groups", "anchors": ["netket/nn/symmetric_linear.py: DenseSymmMatrix, _symmetrizer_col", "netket/models/rbm.py: RBMSymm"]}
{"id": "C62", "title": "Group-convolution layers are equivariant and GCNN amplitudes are invariant", "statement": "DenseEquivariant in modes matrix and irreps computes the documented convolution and commutes with the group action, so that a GCNN's amplitude transforms with its characters, invariant for the default ones.", "quantifier": "every group and kernel", "why_tests_cant": "all groups", "anchors": ["netket/nn/symmetric_linear.py: DenseEquivariantMatrix, DenseEquivariantIrrep", "netket/models/equivariant.py"]}
{"id": "C63", "title": "Neural density matrices are hermitian and positive", "statement": "For real parameters the NDM ansatz satisfies rho(r,c) = conj(rho(c,r)) and is positive semidefinite on every finite set of configurations.", "quantifier": "all parameters and configurations", "why_tests_cant": "continuous parameters", "anchors": ["netket/models/ndm.py: NDM, PureRBM, MixedRBM"]}
{"id": "C64", "title": "Periodic MPS amplitude is the trace of the matrix product and translation invariant", "statement": "MPSPeriodic with complex tensors returns log Tr prod A[s_i]; with a repeated unit cell of symperiod tensors the amplitude is invariant under shifts by symperiod; setup accepts exactly the periods dividing the number of sites.", "quantifier": "all bond dimensions, sizes and tensors", "why_tests_cant": "all sizes", "anchors": ["netket/models/mps.py: MPSPeriodic"]}
{"id": "C65", "title": "The quantum geometric tensor is hermitian positive semidefinite, however it is represented", "statement": "On-the-fly, dense-Jacobian and tree-Jacobian representations of the QGT define the same linear map in their modes, which is symmetric and positive semidefinite plus diag_shift times identity, hermitian for holomorphic ansätze; to_dense of the Jacobian version is its matrix; rescaling and solving are consistent.", "quantifier": "all Jacobians, sample sets, vectors", "why_tests_cant": "continuous inputs", "anchors": ["netket/optimizer/qgt/qgt_onthefly_logic.py", "netket/optimizer/qgt/qgt_jacobian_dense_logic.py", "netket/optimizer/qgt/qgt_jacobian_dense.py"]}
{"id": "C66", "title": "Flattening parameter trees is lossless", "statement": "tree_ravel followed by its unravel function is the identity, likewise tree_to_real; flattened length is tree_size.", "quantifier": "every parameter tree", "why_tests_cant": "all trees", "anchors": ["netket/jax/utils.py: tree_ravel, tree_to_real, tree_size"]}
{"id": "C67", "title": "Random keys handed out are never reused", "statement": "Keys obtained from a PRNGSeq by any mixture of next and take are pairwise distinct and different from the initial key; those obtained by take only are not ancestors of each other.", "quantifier": "every sequence of calls", "why_tests_cant": "all call sequences", "anchors": ["netket/jax/utils.py: PRNGSeq"]}
{"id": "C68", "title": "R->C vector-Jacobian products are complex-linear", "statement": "nkjax.vjp of a real-parameter complex-output function returns ybar^T J (optionally conjugated) for every complex cotangent and is complex-linear; likewise for real to real and holomorphic functions; value_and_grad without auxiliary output returns value and complex gradient.", "quantifier": "all Jacobians and cotangents", "why_tests_cant": "continuous", "anchors": ["netket/jax/_vjp.py: vjp_rc", "netket/jax/_grad.py: value_and_grad"]}
{"id": "C69", "title": "Equal hashable arrays hash equally", "statement": "Whenever two HashableArray compare equal, their hashes are equal.", "quantifier": "all arrays", "why_tests_cant": "all dtypes and shapes", "anchors": ["netket/utils/array.py: HashableArray", "netket/jax/utils.py: HashablePartial"]}
{"id": "C70", "title": "Cached properties of dataclasses are never stale", "statement": "After any sequence of reads and replace calls, a cached property returns what recomputation would return; to/from_state_dict round-trips and rejects unknown or missing fields.", "quantifier": "all sequences", "why_tests_cant": "all histories", "anchors": ["netket/utils/struct/dataclass.py"]}
{"id": "C71", "title": "Exact steady state with sparse matrices uses L†L", "statement": "steady_state(method='ed', sparse=True) diagonalises L†L: the eigenvector of the smallest eigenvalue is stationary and what is returned is stationary and has trace one (if its trace does not vanish).", "quantifier": "all lindbladians", "why_tests_cant": "all matrices", "anchors": ["netket/exact.py: steady_state"]}
{"id": "C72", "title": "Connected-element kernel stays inside its buffers", "statement": "Computing the connected elements of a LocalOperator for any batch of configurations never reads or writes outside the arrays allocated for the result.", "quantifier": "all operators that can be built, all batches", "why_tests_cant": "numba removes bounds checks: an out-of-bounds access shows no error in a test, only corrupted memory for particular operators and last rows", "anchors": ["netket/operator/_local_operator.py: LocalOperator._get_conn_flattened_kernel"]}
{"id": "C73", "title": "Matrices of the wrong size are rejected", "statement": "Adding a local matrix whose dimension is not the product of the local dimensions of the sites it acts on raises an error.", "quantifier": "all operators, matrices and site lists", "why_tests_cant": "depends on which terms were added before", "anchors": ["netket/operator/_local_operator.py: LocalOperator._add_operator"]}
{"id": "C74", "title": "In-place squaring equals the square", "statement": "After B = A; A @= B (the same object) the operator represents the matrix square of the original A.", "quantifier": "all operators", "why_tests_cant": "needs all combinations of constants and terms; aliasing of both operands", "anchors": ["netket/operator/_local_operator.py: LocalOperator._concrete_imatmul_"]}
{"id": "C75", "title": "Malformed Pauli strings are rejected", "statement": "PauliStrings raises for strings of unequal lengths, for a number of weights different from the number of strings, for empty lists, and for any character other than X, Y, Z, I before an optional final newline; otherwise, without newline, it accepts.", "quantifier": "all lists of strings and weights", "why_tests_cant": "all strings, including control characters", "anchors": ["netket/operator/_pauli_strings.py: PauliStrings.__init__"]}
{"id": "C76", "title": "Sums and differences of special Hamiltonians denote sums and differences", "statement": "For Hamiltonians H1, H2 of the same class and any local operator B, H1+H2, H1-H2, H1+B, B+H1, H1-B and B-H1 return operators whose matrices are the sums and differences.", "quantifier": "all graphs, parameters and local operators", "why_tests_cant": "pairs of graphs, graphs with isolated nodes", "anchors": ["netket/operator/_hamiltonian.py: SpecialHamiltonian.__add__, __sub__", "netket/operator/_hamiltonian.py: Ising.copy"]}
{"id": "C77", "title": "A LocalOperator of several matrices has the common dtype", "statement": "LocalOperator(hilbert, operators, acting_on) without dtype accepts any list of real and complex matrices and has a dtype to which all of them promote.", "quantifier": "all lists of dtypes", "why_tests_cant": "order of the list matters", "anchors": ["netket/operator/_local_operator.py: LocalOperator.__init__"]}
{"id": "C78", "title": "LocalLiouvillian: padded batches keep every connected element", "statement": "get_conn_flattened(x, sections, pad=True) of a LocalLiouvillian returns rows of equal width; row i consists of all connected elements of pair i followed by entries with matrix element zero, so that reshaping to (batch, width) loses nothing, and the added configurations belong to the space.", "quantifier": "all spaces, Hamiltonians, jump operators and batches", "why_tests_cant": "the width depends on the batch: tests use batches in random order where the first row is rarely the longest", "anchors": ["netket/operator/_local_liouvillian.py:181-364"]}
{"id": "C79", "title": "LocalLiouvillian.to_linear_operator applies the Lindblad generator", "statement": "to_linear_operator() applied to the row-major vectorisation (complex) of rho gives the vectorisation of -i(H rho - rho H^dagger) + sum(L rho L^dagger - 1/2 {L^dagger L, rho}); with append_trace=True the vector has one more component, the trace of rho.", "quantifier": "all spaces with an indexing (C01), operators and vectors", "why_tests_cant": "tests compare with the dense matrix for one model and complex vectors", "anchors": ["netket/operator/_local_liouvillian.py:366-443"]}
{"id": "C80", "title": "MCMixedState accepts its documented arguments and samples its diagonal with machine_pow 1", "statement": "Constructing an MCMixedState with any of its documented arguments (n_samples, n_samples_per_rank, apply_fun, the *_diag ones) succeeds, and the diagonal state's sampler always has machine_pow 1, also after assigning sampler_diag.", "quantifier": "all samplers, variables and argument combinations", "why_tests_cant": "tests construct mixed states with a model and n_samples only and never assign sampler_diag", "anchors": ["netket/vqs/mc_mixed_state.py: MCMixedState.__init__, sampler_diag"]}
{"id": "C81", "title": "statistics gives an error estimate whenever there are enough samples", "statement": "For at least batch_size samples whose variance is not zero, netket.stats.statistics returns a finite error_of_mean: the estimate from the chain means if there are at least batch_size chains, the block estimate otherwise. It does not depend on how the chains are split over ranks. With more than one chain R_hat is finite. With vanishing variance error, correlation time and R_hat are NaN.", "quantifier": "for all numbers of chains, samples and ranks, all data", "why_tests_cant": "The tests use random data with positive variance and a single process.", "anchors": ["netket/stats/mc_stats.py: _statistics, _block_variance, _batch_variance"]}
{"id": "C82", "title": "Equal hashable partials behave equally", "statement": "If two HashablePartial compare equal, their hashes are equal; if their functions have the same closure and defaults, calling them with the same further arguments gives the same result.", "quantifier": "for all functions, closures, arguments and keyword orders", "why_tests_cant": "The tests only build partials from module-level functions.", "anchors": ["netket/jax/utils.py: HashablePartial"]}
{"id": "C83", "title": "Cached properties follow jax tree operations", "statement": "After jax.tree_map over a NetKet dataclass, a cached property returns what recomputation from the new fields returns.", "quantifier": "for all classes, objects, functions and previously read properties", "why_tests_cant": "The tests check caches only through replace.", "anchors": ["netket/utils/struct/dataclass.py: process_cached_properties, iterate_clz, clz_from_iterable"]}
{"id": "C84", "title": "The FFT implementations of the symmetric layers agree with the matrix implementations", "statement": "On a periodic lattice, DenseSymm and DenseEquivariant in mode \"fft\" return, for every kernel, bias, feature map and symmetry, exactly what mode \"matrix\" returns with the space group of that lattice and its product table; the FFT group convolution is therefore equivariant.", "quantifier": "every periodic lattice (any number of axes, any extents, any number of sites per cell), every point group, kernel, bias and input", "why_tests_cant": "no finite set of lattices and kernels covers the index gymnastics of the reshapes", "anchors": ["netket/nn/symmetric_linear.py: DenseSymmFFT, DenseEquivariantFFT", "netket/graph/space_group.py: space_group"]}
{"id": "C85", "title": "Translation and space groups list translations in row-major order of the cells", "statement": "For a lattice periodic along every axis, translation_group() has one element per cell t, in row-major order of the cells, and element t moves site (c, s) by the vector of t, preserving the offset s; space_group lists for each translation all point symmetries, and its product table is invariant under translating both indices.", "quantifier": "every shape, number of sites per cell and point group", "why_tests_cant": "all shapes", "anchors": ["netket/graph/space_group.py: _translations_along_axis, _full_translation_group, space_group", "netket/utils/group/_semigroup.py: __matmul__"]}
{"id": "C86", "title": "When FFT layers can be set up", "statement": "DenseSymm and GCNN in mode 'fft' can be set up exactly if the number of cells divides the order of the space group, as for every periodic lattice; an open axis contributes only the identity to the translations.", "quantifier": "every lattice", "why_tests_cant": "the failure depends on extents and boundary conditions", "anchors": ["netket/nn/symmetric_linear.py: DenseSymmFFT.setup, DenseEquivariantFFT.setup", "netket/models/equivariant.py: GCNN", "netket/graph/common_lattices.py: Chain"]}
{"id": "C87", "title": "RBM, RBMModPhase and Jastrow return the documented amplitude", "statement": "exp of RBM(x) is exp(a·x) times the product over hidden units of cosh(b_j + W_j·x) (factors dropped with the biases); RBMModPhase has the modulus of its real machine and the phase of the other; Jastrow is the quadratic form with the symmetric part of the kernel.", "quantifier": "all sizes, parameters and configurations", "why_tests_cant": "continuous parameters, all sizes", "anchors": ["netket/models/rbm.py: RBM, RBMModPhase, RBMMultiVal", "netket/models/jastrow.py: Jastrow", "netket/nn/activation.py: log_cosh"]}
{"id": "C88", "title": "SR passes its arguments to tensor and solver", "statement": "nk.optimizer.SR(...) in the new interface, and in the old one without options of the solver, yields a preconditioner with the tensor type, solver, diagonal shift and solver_restart it was given; options accepted by the tensors reach them; unknown methods and too many arguments are errors; calls without the keyword machine are dispatched by the type of the first argument.", "quantifier": "all argument lists and keyword arguments", "why_tests_cant": "combinations of keywords", "anchors": ["netket/optimizer/sr/api.py: build_SR, _SR", "netket/optimizer/qgt: QGTOnTheFly, QGTJacobianDense, QGTJacobianPyTree", "netket/utils/deprecation.py: wraps_legacy"]}
{"id": "C89", "title": "LinearPreconditioner restarts, solve arguments and LU behave as documented", "statement": "A preconditioner with solver_restart=False uses the last solution as starting point of the next solve and with True does not; LinearOperator.solve passes additional arguments on to the solver; LU(A, b, trans) solves the system selected by trans.", "quantifier": "all solvers, sequences of calls, matrices", "why_tests_cant": "arbitrary solvers and histories", "anchors": ["netket/optimizer/preconditioner.py: LinearPreconditioner", "netket/optimizer/linear_operator.py: LinearOperator.solve", "netket/optimizer/solver/solvers.py: LU"]}
{"id": "C90", "title": "QGTAuto calls the chosen constructor with the given options", "statement": "The first call of QGTAuto(solver, **kw0) with a state constructs the representation chosen by the documented heuristic with the keywords kw0 and kw, and repeated calls with the same keywords do the same.", "quantifier": "all states, keywords; first and identical calls", "why_tests_cant": "history dependence", "anchors": ["netket/optimizer/qgt/default.py: QGTAuto, default_qgt_matrix"]}
{"id": "C91", "title": "Spin operators represent the spin algebra", "statement": "For every local dimension, site and Hilbert space, sigmax, sigmay, sigmaz, sigmam, sigmap are LocalOperators acting on the given site whose matrices are Hermitian (x, y, z), adjoint to each other (±), satisfy the commutators and Casimir of angular momentum (σ = 2 S), and reduce to the Pauli matrices for two local states.", "quantifier": "all s = k/2, sites, sizes", "why_tests_cant": "arbitrary spin", "anchors": ["netket/operator/spin.py: sigmax, sigmay, sigmaz, sigmam, sigmap"]}
{"id": "C92", "title": "Boson operators represent the oscillator algebra", "statement": "For every cutoff and site, create and destroy are adjoint, number = create·destroy and multiplies a configuration by its occupation, [destroy, create] is 1 up to the cutoff, and proj(n), 0 <= n < N, are orthogonal projectors onto occupation n resolving the identity; n above the cutoff or below -N is an error.", "quantifier": "all cutoffs, sites, n", "why_tests_cant": "arbitrary cutoff", "anchors": ["netket/operator/boson.py: destroy, create, number, proj"]}
{"id": "C93", "title": "local_values are the local estimators", "statement": "nk.operator.local_values(op, logψ, v) returns, for every row x of v, ⟨x|O|ψ⟩/⟨x|ψ⟩ (for density matrices ⟨x|Oρ|x⟩/⟨x|ρ|x⟩), so that averages with |ψ|² are expectation values; log_vals may be given; wrong shapes are errors.", "quantifier": "all operators built by the API, functions logψ, batches (non-empty for density matrices)", "why_tests_cant": "arbitrary operators and amplitudes", "anchors": ["netket/operator/_local_values.py: local_values, _local_values_impl, _op_op_unpack_kernel"]}
{"id": "C94", "title": "der_local_values are the derivatives of the local values", "statement": "nk.operator.der_local_values(op, machine, v, center_derivative=True) returns for every row of a batch v the derivative of the local value with respect to the parameters, whatever the positive batch size; wrong shapes are errors.", "quantifier": "all operators, differentiable machines, batches, batch sizes", "why_tests_cant": "calculus over continuous parameters", "anchors": ["netket/operator/_der_local_values.py: der_local_values, _der_local_values_impl"]}
{"id": "C95", "title": "Local cost functions are evaluated over the batch", "statement": "nk.operator.define_local_cost_function(f, batch_axes=...) defines a function whose local_cost_function over batched arguments returns f of every batch entry; local_value_cost over padded connected elements is the local value.", "quantifier": "all functions, axes, batches, paddings", "why_tests_cant": "arbitrary functions", "anchors": ["netket/operator/_local_cost_functions.py: define_local_cost_function, local_cost_function, local_value_cost"]}
{"id": "C96", "title": "Replica exchange: moves and exchange probabilities", "statement": "In MetropolisPtSampler with an even number of replicas and a rule without correction, each pass of the loop updates every replica by a Metropolis move in detailed balance with |ψ|^(pow·β) at its β; the replicas are matched in pairs without fixed points in both orders; both members of a pair exchange or none does, iff the number drawn for the pair is below exp of the change of Σ β log p; that probability satisfies detailed balance for the product of tempered distributions.", "quantifier": "all numbers of replicas, both orders, all states, log-probabilities, draws", "why_tests_cant": "arbitrary replica counts and weights", "anchors": ["netket/sampler/metropolis_pt.py: MetropolisPtSampler._sample_next"]}
{"id": "C97", "title": "Replica exchange: samples, statistics, construction", "statement": "MetropolisPtSampler.sample returns the configuration of the replica at β = 1, for rules with and without correction; acceptance counts accepted moves; beta_position and beta_diffusion are running statistics; reset returns to the initial state; n_replicas must be an even integer > 0.", "quantifier": "all states, draws, n_replicas", "why_tests_cant": "arbitrary executions", "anchors": ["netket/sampler/metropolis_pt.py: MetropolisPtSampler"]}
{"id": "C98", "title": "Exact propagation solves the equations of motion", "statement": "PyExactTimePropagation integrates, with propagation_type 'real', iψ' = Hψ: for Hermitian H the norm and every observable commuting with H are constant; with 'imaginary', from a normalised state, the norm stays one and the energy never increases, at a rate of twice its variance.", "quantifier": "all finite-dimensional Hermitian H, solutions, times", "why_tests_cant": "continuous time and arbitrary Hamiltonians", "anchors": ["netket/_exact_dynamics.py: _make_rhs"]}
{"id": "C99", "title": "Exact time evolution driver", "statement": "PyExactTimePropagation: estimate returns mean and variance; advance and iter move time by n·dt and yield at the requested times; step_count counts steps; reset returns to the start; run logs every step; matrix_type 'direct' works; initial states need not be normalised.", "quantifier": "all states, observables, numbers of steps, integrators", "why_tests_cant": "arbitrary executions", "anchors": ["netket/_exact_dynamics.py: PyExactTimePropagation"]}
{"id": "C100", "title": "Hilbert spaces reject invalid arguments", "statement": "states_to_numbers rejects configurations violating the constraint, numbers_to_states rejects negative numbers, ptrace accepts repeated sites like a set, and powers or products that cannot be expressed raise NotImplementedError.", "quantifier": "every space and argument", "why_tests_cant": "arbitrary spaces and integers", "anchors": ["netket/hilbert/homogeneous.py, hilbert_index.py: states_to_numbers, numbers_to_states", "netket/hilbert/fock.py, tensor_hilbert.py, homogeneous.py: ptrace, __pow__, __mul__"]}
{"id": "C101", "title": "Doubled spaces report the shape of both halves", "statement": "DoubledHilbert.shape lists the local dimensions of the physical space twice.", "quantifier": "every physical space", "why_tests_cant": "arbitrary spaces", "anchors": ["netket/hilbert/doubled_hilbert.py: DoubledHilbert.shape"]}
{"id": "C102", "title": "Flips and local moves on CustomHilbert in any order and on doubled products", "statement": "flip_state changes the requested site to another local state also for CustomHilbert with local states in any order and for doubled product spaces, and local Metropolis moves on such spaces are reversible.", "quantifier": "every list of local states, every product", "why_tests_cant": "arbitrary spaces", "anchors": ["netket/hilbert/random/custom.py, random/doubled.py: flip_state", "netket/sampler/rules/local.py"]}
{"id": "C103", "title": "Order of supports and products on spaces with different local dimensions", "statement": "Listing the sites of a local operator in another order, with the matrix permuted accordingly, gives the same operator, and A@B is the matrix product, also when the sites have different local dimensions.", "quantifier": "all spaces and operators", "why_tests_cant": "arbitrary spaces", "anchors": ["netket/operator/_local_operator.py: _reorder_matrix, __matmul__"]}
{"id": "C104", "title": "Constructors and in-place operations on shared buffers", "statement": "The constructor does not change the arrays it is given, repeated A+=X adds X every time, in-place operations on a sum do not change its operands, and in-place scaling scales every term once.", "quantifier": "every sequence of operations", "why_tests_cant": "aliasing over arbitrary histories", "anchors": ["netket/operator/_local_operator.py: __init__, _add_operator, __iadd__, __imul__"]}
{"id": "C105", "title": "is_hermitian after complex scaling", "statement": "is_hermitian is False (or the matrix hermitian) also for operators multiplied with complex scalars or having complex constants, and A@A is the square of A.", "quantifier": "every history", "why_tests_cant": "arbitrary histories", "anchors": ["netket/operator/_local_operator.py: is_hermitian, __mul__", "netket/operator/_abstract_operator.py: __matmul__"]}
{"id": "C106", "title": "Wrappers of squares and concrete conjugates", "statement": "T, conj and collect are available for A.H@A and its transpose, (A.H@A).conjugate() is its conjugate, (A.H@A).transpose().H its adjoint's transpose, and A.T.conjugate(concrete=True) the adjoint of A.", "quantifier": "every operator", "why_tests_cant": "arbitrary nestings", "anchors": ["netket/operator/_lazy.py: Squared, Transpose, Adjoint"]}
{"id": "C107", "title": "max_conn_size bounds the connected elements of every operator", "statement": "max_conn_size is at least the number of connected elements also for operators that are only a constant and after multiplication with zero.", "quantifier": "every operator", "why_tests_cant": "arbitrary histories", "anchors": ["netket/operator/_local_operator.py: max_conn_size, _setup"]}
{"id": "C108", "title": "Operators leaving a constrained space", "statement": "to_dense of an operator that connects states of a constrained space with configurations outside of it raises or drops these elements.", "quantifier": "every operator on a constrained space", "why_tests_cant": "arbitrary constraints", "anchors": ["netket/operator/_abstract_operator.py: to_sparse", "netket/hilbert/hilbert_index.py: states_to_numbers"]}
{"id": "C109", "title": "BoseHubbard equals its LocalOperator conversion", "statement": "BoseHubbard.to_local_operator() has the matrix of the Hamiltonian.", "quantifier": "every graph and parameters", "why_tests_cant": "arbitrary parameters", "anchors": ["netket/operator/_hamiltonian.py: BoseHubbard"]}
{"id": "C110", "title": "LocalLiouvillian.get_conn on all pairs, constant jump operators", "statement": "get_conn of a LocalLiouvillian returns the connected elements of every pair, and jump operators that are multiples of the identity are included.", "quantifier": "every pair and operators", "why_tests_cant": "arbitrary operators", "anchors": ["netket/operator/_local_liouvillian.py: get_conn, get_conn_flattened"]}
{"id": "C111", "title": "GraphOperator from any documented lists", "statement": "GraphOperator can be built from site operators alone and from several bond operators without colours, and numpy arrays may be passed.", "quantifier": "every graph and lists", "why_tests_cant": "arbitrary graphs", "anchors": ["netket/operator/_graph_operator.py: GraphOperator.__init__"]}
{"id": "C112", "title": "History accepts every documented item", "statement": "History() is empty, a list of values gives one entry per value, lengths are checked, items with missing or unknown keys are rejected without changes, an append without iteration increments the time, values are stored as given, and rows may be lists.", "quantifier": "every item", "why_tests_cant": "arbitrary items", "anchors": ["netket/utils/history.py: History", "netket/utils/history.py: accum_in_tree"]}
{"id": "C113", "title": "StateLog on new targets in every mode", "statement": "StateLog in mode 'append' starts a new target when there is none, and in mode 'fail' writes a new archive.", "quantifier": "every prior directory content", "why_tests_cant": "arbitrary targets", "anchors": ["netket/logging/state_log.py: StateLog._init_output"]}
{"id": "C114", "title": "run performs n_iter updates; min_delta is a minimal improvement", "statement": "run(n_iter, step) performs exactly n_iter parameter updates for every step, and EarlyStopping counts only improvements of more than min_delta.", "quantifier": "all step sizes, losses, parameters", "why_tests_cant": "arbitrary sequences", "anchors": ["netket/driver/abstract_variational_driver.py: iter, run", "netket/callbacks/earlystopping.py: EarlyStopping"]}
{"id": "C115", "title": "Single sites and doubled graphs", "statement": "Grid of a single open site is a graph with one node, and DoubledGraph(g) consists of two disjoint copies of g with their colours.", "quantifier": "all graphs", "why_tests_cant": "arbitrary graphs", "anchors": ["netket/graph/common_lattices.py: Grid", "netket/graph/graph.py: DoubledGraph"]}
{"id": "C116", "title": "Identity in products, inverse of remove_duplicates", "statement": "The product of Identity() with any element is formed, and the inverse indices of remove_duplicates reconstruct the original list.", "quantifier": "all elements and lists", "why_tests_cant": "arbitrary lists", "anchors": ["netket/utils/group/_semigroup.py: product", "netket/utils/group/_group.py: remove_duplicates"]}
{"id": "C117", "title": "MetropolisSamplerNumpy behaves as MetropolisSampler", "statement": "MetropolisSamplerNumpy counts accepted and proposed moves since the last reset over all ranks, uses log-values of its current rows also without explicit state, and its chains can be drawn in pieces on any number of ranks without changing samples already returned.", "quantifier": "every sequence of calls, all rank counts", "why_tests_cant": "arbitrary executions", "anchors": ["netket/sampler/metropolis_numpy.py: MetropolisSamplerNumpy"]}
{"id": "C118", "title": "Entry points of samplers on all documented input", "statement": "Exact and autoregressive samplers can be sampled in pieces, without state, and with any machine_pow; module-level reset returns the new state; clusters given to the exchange rule are checked; an entry of probability zero is never selected; the Hamiltonian rule is reversible for every Hermitian operator.", "quantifier": "every input", "why_tests_cant": "arbitrary input", "anchors": ["netket/sampler/base.py: reset, sample_next", "netket/sampler/exact.py: ExactSampler", "netket/sampler/autoreg.py: ARDirectSampler", "netket/sampler/rules/exchange.py, hamiltonian.py", "netket/sampler/autoreg.py: batch_choice"]}
{"id": "C119", "title": "Masked 1d convolutions keep the number of sites", "statement": "MaskedConv1D returns one output per site for every chain length and dilation.", "quantifier": "all lengths, kernel sizes, dilations", "why_tests_cant": "arbitrary sizes", "anchors": ["netket/nn/masked_linear.py: MaskedConv1D"]}
{"id": "C120", "title": "MCState: numbers of samples read back as set", "statement": "chain_length and n_samples_per_rank of an MCState read back what was set (rounded up to full chains), assigning a sampler keeps the numbers consistent, and cached samples have the current chain length.", "quantifier": "all numbers and rank counts", "why_tests_cant": "arbitrary sequences of calls", "anchors": ["netket/vqs/mc_state.py: MCState"]}
{"id": "C121", "title": "Gradients for real parameters and of <L†L>", "statement": "For real parameters expect_and_grad returns the derivative of the energy, and the gradient of a squared Lindbladian does not depend on the sharding.", "quantifier": "all samples, parameters, rank counts", "why_tests_cant": "calculus over continuous parameters", "anchors": ["netket/vqs/mc_state.py: grad_expect_hermitian, grad_expect_operator_Lrho2"]}
{"id": "C122", "title": "Ansätze evaluate on all documented input", "statement": "GCNN with parity can be evaluated, MPSPeriodic with real tensors has a logarithm of its amplitude, and RBMMultiVal distinguishes the local states of the Hilbert spaces it is documented for.", "quantifier": "all parameters, groups, configurations", "why_tests_cant": "arbitrary parameters", "anchors": ["netket/models/equivariant.py: GCNN_Parity_*", "netket/models/mps.py: MPSPeriodic", "netket/models/rbm.py: RBMMultiVal"]}
{"id": "C123", "title": "QGT: dense matrices, rescaling, mixed leaves, warm starts for every ansatz", "statement": "to_dense on the fly is the matrix of the product, rescale_shift gives finite gradients, the dense representation applies to parameters of mixed types, and solve accepts a starting vector, in every mode.", "quantifier": "all ansätze, Jacobians, parameters", "why_tests_cant": "arbitrary Jacobians", "anchors": ["netket/optimizer/qgt/qgt_onthefly.py: to_dense", "netket/optimizer/qgt/qgt_jacobian_dense.py"]}
{"id": "C124", "title": "Keys from next, vjp of complex-to-real functions, auxiliary output", "statement": "No key handed out by PRNGSeq.next is an ancestor of a later one, vjp is complex-linear in the cotangent also for complex parameters and real output, and value_and_grad accepts has_aux.", "quantifier": "all sequences, Jacobians, cotangents", "why_tests_cant": "arbitrary sequences", "anchors": ["netket/jax/utils.py: PRNGSeq", "netket/jax/_vjp.py, _grad.py"]}
{"id": "C125", "title": "Exact steady state with sparse=False and iterative solvers", "statement": "steady_state returns a stationary state of trace one also with sparse=False and with method='iterative'.", "quantifier": "all lindbladians", "why_tests_cant": "arbitrary operators", "anchors": ["netket/exact.py: steady_state"]}
{"id": "C126", "title": "Corner cases of strings, vectors, statistics and partials", "statement": "A Pauli string ending in a newline is rejected; to_linear_operator accepts real vectors; the error of the mean of constant data is zero; equal HashablePartials behave equally also for closures.", "quantifier": "all inputs", "why_tests_cant": "arbitrary inputs", "anchors": ["netket/operator/_pauli_strings.py", "netket/operator/_local_liouvillian.py: to_linear_operator", "netket/stats/mc_stats.py: statistics", "netket/jax/utils.py: HashablePartial"]}
{"id": "C127", "title": "FFT layers can be built for open lattices", "statement": "DenseSymm and GCNN in mode 'auto' or 'fft' can be set up for every lattice with its default point group, also with open boundaries.", "quantifier": "every lattice", "why_tests_cant": "arbitrary lattices", "anchors": ["netket/nn/symmetric_linear.py: DenseSymmFFT", "netket/models/equivariant.py: GCNN"]}
{"id": "C128", "title": "SR and QGTAuto accept their documented options in every call", "statement": "SR accepts the documented options of solver, tensor and legacy machines; QGTAuto passes the keywords of every call, recovers from refused calls, and chooses a representation that can handle the parameters.", "quantifier": "all argument lists and sequences of calls", "why_tests_cant": "arbitrary sequences", "anchors": ["netket/optimizer/sr/api.py: build_SR", "netket/optimizer/qgt/default.py: QGTAuto"]}
{"id": "C129", "title": "Spin operators agree with the quantum numbers of configurations", "statement": "σ± = σx ± iσy as documented, σz multiplies a configuration by its quantum number, σ⁺ raises it, and with total_sz = m the sum of all σz/2 is m.", "quantifier": "all spins, configurations", "why_tests_cant": "arbitrary spin", "anchors": ["netket/operator/spin.py", "netket/hilbert/spin.py: Spin"]}
{"id": "C130", "title": "Documented calls of proj, local values and cost functions", "statement": "proj(n) rejects negative n; local_values accepts empty batches also for density matrices; der_local_values accepts a single configuration and every batch size or rejects it; cost functions have the documented default axes.", "quantifier": "all arguments", "why_tests_cant": "arbitrary arguments", "anchors": ["netket/operator/boson.py: proj", "netket/operator/_local_values.py", "netket/operator/_der_local_values.py", "netket/operator/_local_cost_functions.py"]}
{"id": "C131", "title": "Planar point groups consist of the isometries they name", "statement": "planar.rotation(angle) turns counterclockwise by angle degrees and reflection(angle) reflects in the line at that angle; C(n), n > 0, has n elements, the rotations of the plane of order dividing n, element i turning by 360 i/n degrees; D(n, axis), rectangle() and square() have 2n elements, these and the reflections in the axes at multiples of 180/n degrees; the product table exists; a glide is the reflection followed by the translation, and applied twice translates by twice the vector.", "quantifier": "every order n > 0, angle, translation, origin", "why_tests_cant": "infinitely many orders and angles, real matrices; equality as sets of maps", "anchors": ["netket/utils/group/planar.py: rotation, C, reflection, reflection_group, glide, glide_group, D, rectangle, square"]}
{"id": "C132", "title": "Axial point groups consist of the isometries they name", "statement": "axial.rotation(angle, axis) is the right-handed rotation, reflection(axis) the mirror image in the normal plane, rotoreflection their product, inversion() is -1; for a non-zero axis C(n, axis) are the n proper rotations about the axis of order dividing n; Ch, Cv, D, Dh, S, Dd with perpendicular axes are C(n) extended by the horizontal mirror, the vertical mirror, the perpendicular half turn, both, the rotoreflection, ..., with 2n, 2n, 2n, 4n, n (n even; S(n) = Ch(n) for odd n), 4n elements, each once, identity first; the product table exists. Zero axes raise ValueError, axes which are not perpendicular AssertionError.", "quantifier": "every order n > 0, non-zero axes of any length", "why_tests_cant": "infinitely many orders and axes", "anchors": ["netket/utils/group/axial.py: rotation, C, inversion, reflection, Ch, Cv, rotoreflection, S, D, Dh, Dd"]}
{"id": "C133", "title": "Glide and screw groups", "statement": "axial.glide is the reflection followed by a translation in the mirror plane, with the mirror through origin, and its square is the translation by twice the vector; screw turns about the axis through origin and moves along it; screw_group for the fraction p/q of a turn in lowest terms stops after q elements, element i being the i-th power of the screw, the q-th power a pure translation by q trans; given a unit cell containing this translation the product table exists.", "quantifier": "every axis, translation, origin, p/q with q < 10^8", "why_tests_cant": "infinitely many pitches and axes; a loop whose end depends on a test of integrality", "anchors": ["netket/utils/group/axial.py: screw, screw_group, glide, glide_group"]}
{"id": "C134", "title": "Cubic point groups and the diamond space group", "statement": "T() are the 12 rotations of the regular tetrahedron, Td() its 24 symmetries, Th() the rotations and their negatives, O() the 24 rotations of the cube, Oh() its 48 symmetries, each once with the identity first and a product table. Fd3m() has 48 elements and the fcc unit cell; up to translations of the lattice its elements are exactly the isometries of space which map the diamond structure into itself, and the product table exists.", "quantifier": "all orthogonal maps, all isometries of space", "why_tests_cant": "membership of all isometries of a continuum", "anchors": ["netket/utils/group/cubic.py: T, Td, Th, O, Oh, Fd3m"]}
{"id": "C135", "title": "Operations on point groups", "statement": "rotation_group() keeps the orientation-preserving elements in order; change_origin(o) gives, element by element, the same linear part about o; A @ B lists the compositions with A's elements running slowest, takes the unit cell which is given and raises ValueError for different ones; the trivial group has one element; cuboid() are the 8 changes of sign of coordinates and cuboid_rotations() the 4 proper ones.", "quantifier": "all groups of constructed elements, origins", "why_tests_cant": "arbitrary groups and origins", "anchors": ["netket/utils/group/_point_group.py: PointGroup.rotation_group, PointGroup.change_origin, product, trivial_point_group", "netket/utils/group/axial.py: cuboid, cuboid_rotations"]}
{"id": "C136", "title": "Bins for floating-point numbers", "statement": "comparable(x) is a nearest integer to bin_density x + offset; numbers within (1/2 - offset)/bin_density of a multiple m/bin_density are put in bin m, so that fractions with denominators dividing 3326400 computed with errors below 4.6e-8 have equal bins precisely if they are equal; bins are monotone and numbers in one bin differ by at most its width; comparable_periodic is invariant under integer shifts, lies in [0, bin_density), and two numbers agree precisely if some integer shift puts them in the same bin; is_approx_int holds precisely within atol of an integer.", "quantifier": "all numbers, offsets and (even) bin densities", "why_tests_cant": "real numbers, arbitrary errors", "anchors": ["netket/utils/float.py: comparable, comparable_periodic, is_approx_int"]}
{"id": "C137", "title": "prune_zeros sets small parts to zero", "statement": "prune_zeros(x) returns x with the entries within 1e-8 of zero replaced by zero and all others unchanged; for complex arrays this applies to the parts, and a real array is returned precisely if all imaginary parts are within 1e-8 of zero.", "quantifier": "all arrays", "why_tests_cant": "arbitrary arrays", "anchors": ["netket/utils/float.py: prune_zeros, _prune_zeros"]}
{"id": "C138", "title": "Point-group constructors reject other arguments, and point groups can be compared", "statement": "C(n) rejects n < 1; D, Cv, Dd, glide reject axes at 45 degrees whatever their lengths; a point group equals itself, and only groups with the same number of elements.", "quantifier": "all arguments", "why_tests_cant": "arbitrary arguments", "anchors": ["netket/utils/group/planar.py: C", "netket/utils/group/axial.py: C, D", "netket/utils/group/_point_group.py: PointGroup.__eq__"]}
{"id": "C139", "title": "prune_zeros leaves its argument alone and uses its tolerance", "statement": "prune_zeros(x, atol) does not change x, and prunes the entries within atol of zero.", "quantifier": "all arrays and tolerances", "why_tests_cant": "aliasing through views", "anchors": ["netket/utils/float.py: prune_zeros"]}
{"id": "C140", "title": "The custom rule samples the given stochastic operators", "statement": "CustomRuleNumpy(operator, weights) accepts precisely operators whose matrices are symmetric and stochastic, with one non-negative weight each; from x it proposes y with probability sum_k (w_k / sum w) <x|O_k|y>, every chain on its own with its own random numbers; proposals are configurations of the space, symmetric in x and y, with correction zero; Metropolis steps with them satisfy detailed balance for |psi|^machine_pow. Assumes an operator without constant and no non-zero element below the cutoff.", "quantifier": "every such operator, weights, batch, random numbers in [0,1)", "why_tests_cant": "probabilities over real random numbers, arbitrary operators and batch sizes", "anchors": ["netket/sampler/rules/custom_numpy.py: CustomRuleNumpy.transition, _check_operators, _pick_random_and_init, _choose", "netket/operator/_local_operator.py: LocalOperator.get_conn_filtered"]}
{"id": "C141", "title": "The custom rule stays inside the row it has drawn", "statement": "Whatever operator passes the construction of CustomRuleNumpy, the proposal for a chain is one of the configurations connected to it by the drawn operator.", "quantifier": "all accepted operators", "why_tests_cant": "index past the end of numpy arrays under numba", "anchors": ["netket/sampler/rules/custom_numpy.py: _choose, CustomRuleNumpy.__post_init__"]}
{"id": "C142", "title": "nk.jax.expect is the sample mean with the score-function gradient", "statement": "The value is the mean over the samples of all ranks and does not depend on n_chains, which must divide the number of samples (TypeError otherwise); the gradients of the ranks add up to the mean over all samples of (L - mean L) d log p + d L, times the cotangent; for n independent samples of exp(log_pdf)/Z the mean of the gradient is the derivative of the exact expectation value minus 1/n of its score part, and exactly the derivative if the density does not depend on the parameter. The kernel for squared and non-Hermitian operators raises RuntimeError unless NETKET_EXPERIMENTAL is set, and returns this gradient on one rank.", "quantifier": "all samples, ranks with equally many samples, differentiable log_pdf and functions, finite sample spaces for the mean", "why_tests_cant": "mean over all possible samples; derivatives; any number of ranks", "anchors": ["netket/jax/_expect.py: _expect, _expect_fwd, _expect_bwd", "netket/vqs/mc_state.py: grad_expect_operator_kernel"]}
{"id": "C143", "title": "The gradient of expect is unbiased and that of the kernel independent of the ranks", "statement": "The mean of the gradient of nk.jax.expect over independent samples is the derivative of the expectation value; grad_expect_operator_kernel returns the gradient for the samples of all ranks.", "quantifier": "all sample numbers and ranks", "why_tests_cant": "mean over all samples; several ranks", "anchors": ["netket/jax/_expect.py: _expect_fwd, _expect_bwd", "netket/vqs/mc_state.py: grad_expect_operator_kernel"]}
{"id": "C144", "title": "Optimisation steps of VMC and SteadyState", "statement": "VMC(...) raises TypeError precisely for a Hamiltonian on another space, SteadyState(...) precisely for an operator that is no super-operator, both ValueError precisely for sr together with preconditioner or sr_restart without one; construction changes at most solver_restart of the preconditioner passed. A step without mutable model state draws samples once, with the present parameters, uses them for statistics, gradient and tensor (observables estimated next use the same samples), and then assigns the parameters computed by the optimiser and discards the samples; advance(a+b) is advance(a) then advance(b). Leaves with real parameters receive the real part of the direction. For a Hermitian Hamiltonian and exact expectation values the energy decreases along the update at the rate of its squared norm (without preconditioner), or of the quadratic form of the shifted tensor (with stochastic reconfiguration).", "quantifier": "all states, samplers, operators, preconditioners, optimisers, numbers of steps; all differentiable ansätze for the descent", "why_tests_cant": "any estimator, solver and optimiser; derivatives of the exact energy", "anchors": ["netket/driver/vmc.py: VMC.__init__, VMC._forward_and_backward", "netket/driver/steady_state.py: SteadyState.__init__, SteadyState._forward_and_backward", "netket/driver/abstract_variational_driver.py: iter, advance, update_parameters"]}
{"id": "C145", "title": "Drivers do not interfere, check their operator, describe themselves and use one set of samples", "statement": "Constructing a driver does not change another; SteadyState rejects operators on another space; info() describes the driver; gradient and tensor of a step are computed from the same samples.", "quantifier": "all drivers", "why_tests_cant": "aliasing of preconditioners; samplers with state", "anchors": ["netket/driver/vmc.py: VMC.__init__, VMC.info", "netket/driver/steady_state.py: SteadyState.__init__, SteadyState.info", "netket/vqs/base.py: model_state"]}
{"id": "C146", "title": "Configuration flags", "statement": "A flag defined for the first time has the value of its environment variable, or the default if that is not set; for booleans precisely y, yes, t, true, on, 1 and n, no, f, false, off, 0 in any case are understood and anything else is a ValueError; a second definition is a KeyError without effect. config.update changes that flag only, to the value converted to its type, is seen through FLAGS at once, and is a KeyError without effect for an undefined name. Values always have the type given in the definition.", "quantifier": "all names, values, environments, sequences of definitions and updates", "why_tests_cant": "all strings and environments", "anchors": ["netket/utils/config_flags.py: bool_env, int_env, get_env, Config.define, Config.update, ReadOnlyDict"]}
{"id": "C147", "title": "Flags are updated like they are defined", "statement": "A string given to config.update means the same as in the environment; flags with runtime=False cannot be changed; a failed definition leaves no trace.", "quantifier": "all flags and strings", "why_tests_cant": "all strings", "anchors": ["netket/utils/config_flags.py: Config.define, Config.update"]}
{"id": "C148", "title": "MPI reductions, broadcast and gathering", "statement": "mpi_sum, mpi_prod, mpi_any and mpi_max of a C-ordered array of any shape return on every rank the elementwise reduction over all ranks, the array passed in is overwritten with it and no other memory changes; on one rank nothing changes; mpi_mean returns the elementwise average and leaves the sum in the array passed in; the versions for JAX arrays return the same values. Broadcast gives every rank the object of the root, all-gather on several ranks the list in the order of the ranks. _get_version_tuple reads the first three numeric components of a version with any suffix, and tuples compare at the first difference.", "quantifier": "all shapes, numbers of ranks, reductions, contents; all version strings of digits and dots with any suffix", "why_tests_cant": "any number of ranks, memory layout", "anchors": ["netket/utils/mpi/primitives.py: mpi_sum, mpi_prod, mpi_mean, mpi_any, mpi_max, mpi_bcast, mpi_allgather and _jax", "netket/utils/mpi/mpi.py: _get_version_tuple"]}
{"id": "C149", "title": "MPI primitives for any layout and any number of ranks", "statement": "The reductions work for arrays with any strides; mpi_allgather returns a list on any number of ranks; mpi_bcast rejects a root that does not exist; mpi_any returns truth values.", "quantifier": "all layouts and numbers of ranks", "why_tests_cant": "memory layout", "anchors": ["netket/utils/mpi/primitives.py: mpi_sum, mpi_allgather, mpi_bcast, mpi_any"]}
{"id": "C150", "title": "character_table lists exactly the irreducible characters", "statement": "For a finite group whose first element is the identity, character_table() has one row per complex irreducible representation, none missing and none repeated, row i listing the value of its character on self[0], self[1], ...; character_table_by_class() lists the same values on the representatives of the classes; there are as many rows as conjugacy classes, the dimensions do not decrease and the first row is the trivial representation. prune_zeros moves no part of a value by more than 1e-8. The eigenvalues of the random combination of class matrices are distinct for almost every random vector. The permutation groups produced by the library are covered.", "quantifier": "all finite groups, orderings of the elements with the identity first, random vectors with distinct eigenvalues (almost all), eigenvectors returned by eig", "why_tests_cant": "all groups and all random vectors; needs representation theory, not a comparison with a list", "anchors": ["netket/utils/group/_group.py: _compute_conjugacy_classes, character_table_by_class, character_table, _cplx_sign", "netket/utils/float.py: prune_zeros, comparable"]}
{"id": "C151", "title": "Character tables do not depend on which element comes first", "statement": "character_table() exists for any ordering of the elements and its rows are the irreducible characters.", "quantifier": "all orderings of all finite groups", "why_tests_cant": "all orderings", "anchors": ["netket/utils/group/_group.py: character_table_by_class"]}
{"id": "C152", "title": "irrep_matrices returns unitary representations with the characters of the table", "statement": "Each array returned by irrep_matrices() is a unitary representation: the matrix of the identity is the identity matrix, the matrix of a product is the product of the matrices. There is one per row of the character table, and its traces are the row whenever the eigenspace picked has the dimension of the character, or is irreducible (no accidental degeneracy). Characters of real type get real matrices; characters of complex or quaternionic type never use the real symmetric matrix.", "quantifier": "all finite groups, all random vectors, all results of eigh meeting its contract", "why_tests_cant": "all groups and random vectors", "anchors": ["netket/utils/group/_group.py: _irrep_matrices, irrep_matrices"]}
{"id": "C153", "title": "space_group_irreps returns the irreducible characters of the star of k", "statement": "For a symmorphic space group of any lattice, a wave vector whose images under the point group are allowed by the boundary conditions, and real characters of its little group: space_group_irreps(k) has one row per irreducible character of the little group, holding the values on the elements of space_group (same order) of an irreducible character of the space group; different rows and different stars give different characters, and on a periodic lattice every irreducible character of the space group arises from some allowed k. to_reciprocal_lattice returns integer coordinates of allowed wave vectors and raises InvalidWaveVectorError if a coordinate is further than 1e-8 from the integers or non-zero along an open axis; space_group_irreps raises the same if an image of k is not allowed.", "quantifier": "all dimensions, extents, boundary conditions, basis vectors, point groups, wave vectors and little-group character tables", "why_tests_cant": "all space groups, infinitely many", "anchors": ["netket/graph/space_group.py: space_group_irreps, _little_group_index, _little_group_irreps", "netket/graph/lattice.py: to_reciprocal_lattice"]}
{"id": "C154", "title": "space_group_irreps with complex characters or operations with translations", "statement": "(Documented form of C153 without its restrictions) also for complex characters of the little group, and for point operations carrying a translation (glides, screws, another origin), every row of space_group_irreps holds an irreducible character of the space group.", "quantifier": "all space groups and wave vectors", "why_tests_cant": "all space groups", "anchors": ["netket/graph/space_group.py: space_group_irreps, _little_group_irreps"]}
{"id": "C155", "title": "Point, translation and space groups of a grid act as its symmetries", "statement": "For Grid(extent, pbc) of any dimension: the default point group contains, each once and with the identity first, exactly the operations that permute axes of equal extent and boundary condition and reverse axes, about the centre of open axes and the origin of periodic ones, and it has a product table. The arrays of point_group and rotation_group are permutations of the sites that move each site as their element does (modulo the box along periodic axes) and map edges to edges; @ of arrays is composition of operations. All elements of translation_group() and space_group() are graph automorphisms and the space group is closed under products. The arrays are pairwise different exactly if every axis has at least two sites and every periodic one at least three; then, on a periodic grid, DenseSymm and DenseEquivariant in mode fft give the results of mode matrix. For any lattice with independent basis vectors and distinct sites, translations look up the site of the same kind in the neighbouring cell.", "quantifier": "all dimensions, extents (below 3326400 per axis) and boundary conditions, all layers' inputs and parameters", "why_tests_cant": "all grids, infinitely many groups and sites", "anchors": ["netket/graph/common_lattices.py: _grid_point_group, _perm_symm, _axis_reflection, Grid", "netket/graph/space_group.py: point_group, rotation_group, _translations_along_axis, _full_translation_group, space_group", "netket/graph/lattice.py: id_from_position"]}
{"id": "C156", "title": "point_group of a grid lists every symmetry once", "statement": "(Documented form of C155 for short axes) also for grids with an axis of a single site or a periodic axis of two sites, point_group() and space_group() list every permutation once, and each row of their product_table is a permutation of the elements.", "quantifier": "all grids", "why_tests_cant": "all grids", "anchors": ["netket/graph/common_lattices.py: _grid_point_group", "netket/graph/space_group.py: point_group, space_group", "netket/utils/group/_permutation_group.py: product_table"]}
{"id": "C157", "title": "DenseSymm, DenseEquivariant and GCNN build layers that compute the group's transform", "statement": "`nk.nn.DenseSymm` on a periodic lattice with a point group returns, in each of the modes auto, fft and matrix, a layer whose output is sum_i x_i w[g(i), f] + b_f for the space group; for graphs, permutation groups, sequences and arrays modes auto and matrix do. `nk.nn.DenseEquivariant` on such a lattice (auto, fft) and on a permutation group (auto, irreps, matrix) returns a layer computing the group convolution. `nk.models.GCNN` on a lattice (auto, fft, irreps), on a permutation group (auto, irreps) and on an array with irreps or a product table has the amplitude of the group convolutional network, independent of the mode; permuting the sites by a group element multiplies the amplitude by its character, and leaves it unchanged for the default characters. The kinds of arguments DenseSymm accepts are exactly those listed, and the refused ones raise TypeError (fft without shape) or ValueError.", "quantifier": "all groups, lattices, point groups, numbers of layers and features, parameters, activations and inputs", "why_tests_cant": "tests build a few small lattices and compare one random output per mode", "anchors": ["netket/nn/symmetric_linear.py:617-681", "netket/nn/symmetric_linear.py:684-787", "netket/models/equivariant.py:522-686"]}
{"id": "C158", "title": "Symmetries DenseEquivariant and GCNN document but do not accept", "statement": "`DenseEquivariant` and `GCNN` accept a nk.graph.Graph in mode auto, DenseEquivariant accepts all four documented modes for a lattice, GCNN accepts its documented mode matrix, a product table is accepted in every form and only with valid modes, and characters can be given as an array.", "quantifier": "all graphs, lattices, groups, tables and modes", "why_tests_cant": "tests never use graphs without point group, mode matrix on lattices, or array characters", "anchors": ["netket/nn/symmetric_linear.py:725-787", "netket/models/equivariant.py:581-640"]}
{"id": "C159", "title": "BCC, FCC, Diamond, Pyrochlore, Triangular, Honeycomb and Kagome connect nearest neighbours", "statement": "For positive extents and any boundary conditions (for the one-site lattices BCC, FCC and Triangular at least one axis must be periodic or longer than one cell), the lattice has prod(extent) times the number of sites per cell nodes, one for each site of the box; two different sites are connected exactly when some copy of the second under translations along the periodic sides of the box is at the least distance between different points of the infinite lattice from the first; that distance is sqrt(3)/2, sqrt(1/2), sqrt(3)/4, sqrt(1/8), 1, 1/sqrt(3), 1/2 respectively; there are no loops and no repeated edges. With periodic boundaries and at least three cells along each axis every site has exactly 8, 12, 4, 6, 6, 3, 4 neighbours.", "quantifier": "all extents, boundary conditions and distance tolerances >= 0", "why_tests_cant": "tests check the number of nodes and edges of one small lattice each", "anchors": ["netket/graph/common_lattices.py:209-436", "netket/graph/lattice.py:64-144", "netket/graph/lattice.py:281-331"]}
{"id": "C160", "title": "Arguments of lattices are checked and normalised", "statement": "Basis vectors must be a square array, pbc a boolean or a sequence of booleans of length ndim, site_offsets and atoms_coord cannot both be given, Grid takes exactly one of extent and length: anything else is a ValueError (TypeError for the extent). A boolean pbc stands for all axes, atoms_coord and length are synonyms, no offsets means one site at the origin. Among offsets equal modulo the unit cell the first one is kept with a warning, in which case they are sorted; otherwise they stay as given. Hypercube, Cube, Square and Chain are grids of equal sides.", "quantifier": "all arguments", "why_tests_cant": "tests try one bad value of a few arguments", "anchors": ["netket/graph/lattice.py:333-405", "netket/graph/common_lattices.py:63-206"]}
{"id": "C161", "title": "Sites given outside of the unit cell give a warning", "statement": "`Lattice` warns when site offsets lie outside of the primitive cell, since edges may then be wrong.", "quantifier": "all offsets", "why_tests_cant": "no test gives such offsets", "anchors": ["netket/graph/lattice.py:366-387"]}
{"id": "C162", "title": "random_state gives states of the space in the documented shape", "statement": "hilbert.random_state(key, size) for Spin, Fock, Qubit, CustomHilbert, tensor products and doubled spaces in any nesting returns a single state, a batch of `size` states, or an array of leading shape `size` (a tuple of up to three positive integers); every row is a state of the space (local states and constraints of every factor). A tuple gives the rows of the batch of its product, no size the row of a batch of one. A CustomHilbert with a constraint or infinitely many local states is a NotImplementedError, on its own, in a product, and doubled.", "quantifier": "all spaces, keys, sizes and random number streams", "why_tests_cant": "tests draw a few states of a fixed list of spaces", "anchors": ["netket/hilbert/abstract_hilbert.py:69-125", "netket/hilbert/random/base.py:26-101", "netket/hilbert/random/custom.py:22-36", "netket/hilbert/random/doubled.py:25-32", "netket/hilbert/random/tensor_hilbert.py:22-31", "netket/hilbert/random/fock.py:24-61", "netket/hilbert/random/spin.py:23-95", "netket/hilbert/random/qubit.py:22-25"]}
{"id": "C163", "title": "The distribution of random_state", "statement": "Given independent uniform draws: without constraint all states are equally likely (Spin, Fock, Qubit, CustomHilbert); so are the states of spin 1/2 with total_sz and of hard-core bosons (n_max = 1). A Fock space with n_particles <= n_max (or no n_max) gives occupations with the multinomial distribution; so do spins larger than 1/2 for the raisings above the lowest state as long as there are at most 2s of them.", "quantifier": "all sizes, cut-offs, constraints and states", "why_tests_cant": "tests do not look at the distribution", "anchors": ["netket/hilbert/random/fock.py:24-61", "netket/hilbert/random/spin.py:23-95", "netket/hilbert/random/qubit.py:22-25", "netket/hilbert/random/custom.py:22-36"]}
{"id": "C164", "title": "random_state is uniform, takes any size and works without a key", "statement": "random_state returns uniformly distributed states of the space, of shape (*size, N) for any tuple, also in the deprecated form without a key.", "quantifier": "all spaces and sizes", "why_tests_cant": "tests use few sizes and do not look at the distribution", "anchors": ["netket/hilbert/abstract_hilbert.py:81-93", "netket/hilbert/random/base.py:23", "netket/hilbert/random/fock.py:45-61", "netket/hilbert/random/spin.py:79-95", "netket/hilbert/fock.py:178-201", "netket/hilbert/spin.py:159-195"]}
{"id": "C165", "title": "DenseGeneral and Dense contract the documented axes", "statement": "nk.nn.DenseGeneral(features, axis, batch_dims) on an input of shape B + F + C, batch axes first and transformation along the last axes (given by positive or negative numbers), returns an array of shape B + F + features with entries sum_k x[b,f,k] kernel[b,k,o] + bias[b,o]. nk.nn.Dense is the case of the last axis. The initial kernel is for every batch index the matrix kernel_init gives for the flattened shape. batch_dims that leave out an earlier axis raise ValueError.", "quantifier": "all shapes, features, axes, parameters and inputs over any commutative ring", "why_tests_cant": "tests compare a few shapes with einsum", "anchors": ["netket/nn/linear.py:37-39", "netket/nn/linear.py:42-152", "netket/nn/linear.py:155-202"]}
{"id": "C166", "title": "DenseGeneral along any axis, with any dtype", "statement": "nk.nn.DenseGeneral transforms along any given axes and adds to each feature its bias; the parameters have the given dtype.", "quantifier": "all shapes, axes and dtypes", "why_tests_cant": "tests use bias_init = zeros or ones", "anchors": ["netket/nn/linear.py:103-121", "netket/nn/linear.py:132-152"]}
{"id": "C167", "title": "Equal Hilbert spaces are the same space", "statement": "== on Hilbert spaces (Spin, Fock, Qubit, CustomHilbert, tensor products and doubled spaces, nested in any way) is an equivalence relation; equal spaces have equal hashes, the same number of degrees of freedom and the same configurations. Equal spaces made of spins, bosons and qubits number the local states of every site alike. Unconstrained Spin, Fock and Qubit spaces are equal exactly when class and arguments agree.", "quantifier": "all spaces and all hash functions of python objects", "why_tests_cant": "tests compare a few pairs", "anchors": ["netket/hilbert/abstract_hilbert.py:146-164", "netket/hilbert/homogeneous.py:66-88", "netket/hilbert/homogeneous.py:185-193", "netket/hilbert/spin.py:155-157", "netket/hilbert/fock.py:159-161", "netket/hilbert/qubit.py:72-74", "netket/hilbert/tensor_hilbert.py:139-141", "netket/hilbert/doubled_hilbert.py:135-137"]}
{"id": "C168", "title": "Spaces built with the same arguments are equal, and equal spaces number their states alike", "statement": "Two Hilbert spaces constructed with the same arguments compare equal; two equal spaces assign the same numbers to the same states.", "quantifier": "all spaces", "why_tests_cant": "tests compare unconstrained spaces only", "anchors": ["netket/hilbert/spin.py:95-107", "netket/hilbert/fock.py:62-97", "netket/hilbert/homogeneous.py:71-81", "netket/hilbert/homogeneous.py:185-193", "netket/hilbert/discrete_hilbert.py:210-221"]}
{"id": "C169", "title": "Automorphisms, distances and unions of graphs", "statement": "Graph.automorphisms() lists every permutation of the nodes that preserves edges and colours exactly once, the identity first; they form a group with inverses and product table. distances() gives the number of steps of a shortest path between connected nodes. from_igraph(to_igraph()) is the graph; directed graphs and colours that are not integers raise ValueError; without colours every edge has colour 0. disjoint_union has the nodes of both graphs and exactly their edges with their colours.", "quantifier": "all graphs, all orders in which igraph finds the isomorphisms", "why_tests_cant": "tests look at a few lattices", "anchors": ["netket/graph/graph.py:86-119", "netket/graph/graph.py:192-214", "netket/graph/graph.py:263-267", "netket/graph/abstract_graph.py:66-71"]}
{"id": "C170", "title": "The distance between unconnected nodes is -1", "statement": "distances() contains -1 for every pair of nodes without a path between them, as documented in AbstractGraph.distances.", "quantifier": "all graphs and pairs of nodes", "why_tests_cant": "tests use connected graphs", "anchors": ["netket/graph/abstract_graph.py:66-71", "netket/graph/graph.py:192-193"]}
{"id": "C171", "title": "Arithmetic on pytrees, dtypes, composition and keys across processes", "statement": "For pytrees of one structure tree_dot(a, b) is the dot product of the flattened arrays and tree_dot(tree_conj(a), a) the squared norm; tree_axpy(a, x, y) flattens to a*x + y; tree_cast gives every leaf the dtype of the target and the value cast to it, discarding imaginary parts only for targets that are not complex. dtype_real and dtype_complex are inverse to each other for single and double precision; maybe_promote_to_complex promotes the first dtype exactly if one is complex. compose(f, g, h)(x) is f(g(h(x))). PRNGKey gives all processes of the communicator the key of the root; mpi_split gives all processes different keys which depend on the key of the root only.", "quantifier": "all pytrees, dtypes, lists of functions, numbers of processes and keys", "why_tests_cant": "tests use a few trees and one process", "anchors": ["netket/jax/utils.py:104-231", "netket/jax/utils.py:308-358"]}
{"id": "C172", "title": "Homogeneous trees, empty trees and splitting over a communicator", "statement": "tree_ishomogeneous is True only if all leaves are real or all are complex. tree_dot of trees without leaves is the dot product of their flattened arrays. mpi_split(key, root, comm) splits the key of the root of comm over the processes of comm.", "quantifier": "all pytrees; all communicators", "why_tests_cant": "tests use floating leaves, trees with leaves and the default communicator", "anchors": ["netket/jax/utils.py:136-140", "netket/jax/utils.py:181-194", "netket/jax/utils.py:338-358"]}
{"id": "C173", "title": "Legacy optimizers perform the documented updates", "statement": "For every sequence of gradients, netket.legacy.optimizer.Sgd uses the learning rate eta*gamma^n in update n, Momentum the exponentially weighted mean of all gradients, AdaGrad the root of the accumulated squared gradients, RmsProp the root of their weighted mean, AdaDelta the documented recursion, AdaMax algorithm 2 of Kingma and Ba, AmsGrad a second moment that never decreases; no division by zero. reset() of Sgd, Momentum, RmsProp, AdaMax and AmsGrad makes the optimizer act like a new one. Arguments outside of the documented ranges raise ValueError.", "quantifier": "all arguments, all numbers of parameters, all sequences of gradients", "why_tests_cant": "tests run a few steps with default arguments", "anchors": ["netket/legacy/optimizer/numpy/sgd.py:4-25", "netket/legacy/optimizer/numpy/momentum.py:19-58", "netket/legacy/optimizer/numpy/ada_grad.py:24-57", "netket/legacy/optimizer/numpy/rms_prop.py:21-62", "netket/legacy/optimizer/numpy/ada_delta.py:21-65", "netket/legacy/optimizer/numpy/ada_max.py:25-83", "netket/legacy/optimizer/numpy/ams_grad.py:25-78"]}
{"id": "C174", "title": "Documented options of the legacy optimizers", "statement": "Sgd accepts decay factors gamma <= 1. reset() works for AdaGrad and AdaDelta. The factory AmsGrad uses its arguments. AdaDelta uses l2reg. AdaMax can be used with every accepted beta1. RmsProp divides by sqrt(s) + epsilon. Sgd for jax machines uses l2reg and decay_factor. Optimizers of torch can be wrapped and wrapped optimizers of jax printed.", "quantifier": "all arguments", "why_tests_cant": "tests use the default arguments", "anchors": ["netket/legacy/optimizer/numpy/sgd.py:16", "netket/legacy/optimizer/numpy/ada_grad.py:59-61", "netket/legacy/optimizer/numpy/ada_delta.py:67-70", "netket/legacy/optimizer/ams_grad.py:40", "netket/legacy/optimizer/numpy/ada_max.py:73", "netket/legacy/optimizer/jax/__init__.py:39-41", "netket/legacy/optimizer/torch.py:31", "netket/legacy/optimizer/jax/wrap.py:44-59"]}
{"id": "C175", "title": "Legacy samplers: proposals, acceptance, bookkeeping and replica exchange", "statement": "netket.legacy.random.randint is uniform on [low, high). MetropolisLocal proposes, for a uniformly drawn site, every other local state with equal probability; MetropolisExchange swaps the sites of a cluster, the clusters being the pairs within d_max. Both chains leave |psi|^machine_pow stationary and satisfy detailed balance. The constructor, reset, __next__ and generate_samples keep one configuration per chain and the log values of exactly these configurations, count sweep_size*n_chains moves per sample, and return independent copies; acceptance is in [0,1]. With parallel tempering the replicas hold the inverse temperatures 1-i/n, each once, the configuration returned is that of the replica at 1, for even n pairs exchange with the probability that gives detailed balance for the tempered product, counters follow the temperatures, and the diffusion statistics are the mean and the summed squared deviation of the position. ExactSampler after reset draws with probability proportional to |psi|^machine_pow.", "quantifier": "all local states, clusters, wavefunctions, powers, numbers of chains, replicas and moves, all random numbers", "why_tests_cant": "statistical tests on small systems cannot establish the stationary distribution for all machines", "anchors": ["netket/legacy/random.py:49-65", "netket/legacy/sampler/numpy/local_kernel.py:9-33", "netket/legacy/sampler/numpy/exchange_kernel.py:11-32", "netket/legacy/sampler/metropolis_exchange.py:6-92", "netket/legacy/sampler/numpy/metropolis_hastings.py:12-131", "netket/legacy/sampler/abstract_sampler.py:42-59", "netket/legacy/sampler/numpy/metropolis_hastings_pt.py:43-244", "netket/legacy/sampler/exact_sampler.py:30-70"]}
{"id": "C176", "title": "Legacy samplers: documented behaviour of the remaining options", "statement": "MetropolisHamiltonian samples |psi|^machine_pow. list(sampler.samples(n)) holds n successive configurations. n_chains must be positive and can be changed. MetropolisLocal starts in the Hilbert space. Parallel tempering works for every number of replicas, includes the flat distribution, and n_replicas can be changed. ExactSampler.generate_samples samples the present machine.", "quantifier": "all operators, machines, numbers of chains and replicas", "why_tests_cant": "the Hamiltonian kernel is only tested with constant numbers of connected configurations or loose statistics", "anchors": ["netket/legacy/sampler/numpy/hamiltonian_kernel.py:16-41", "netket/legacy/sampler/numpy/metropolis_hastings.py:30-42", "netket/legacy/sampler/numpy/metropolis_hastings.py:80-82", "netket/legacy/sampler/numpy/metropolis_hastings.py:126", "netket/legacy/sampler/numpy/local_kernel.py:28-33", "netket/legacy/sampler/numpy/metropolis_hastings_pt.py:43-65", "netket/legacy/sampler/numpy/metropolis_hastings_pt.py:185-198", "netket/legacy/sampler/exact_sampler.py:48-61"]}
{"id": "C177", "title": "Legacy machines: amplitudes, log-derivatives, symmetries and conversion to arrays", "statement": "exp(RbmSpin.log_val(x)) is e^{sum a s} prod cosh(W s + b) (real machines: for every configuration; complex ones: if no hidden input is purely imaginary and non-zero), and der_log is the gradient of its logarithm with respect to `parameters`, with and without automorphisms. With a group of automorphisms log_val is equal on symmetry-related configurations, also for RbmMultiVal, whose one-hot encoding is injective. RbmSpinPhase has the modulus of the first and the phase of the second network, and der_log is the gradient of its log_val. Jastrow.log_val is sum a s + sum_{i<j} s_i W_ij s_j, der_log its gradient; without automorphisms every pair has its own parameter, with a group of automorphisms two pairs share a parameter iff an automorphism maps one to the other, and log_val without visible bias is invariant. The parameter setters store exactly what they get and reject wrong lengths; n_par, n_hidden and alpha are related as documented. to_array() is the normalised amplitude, log_norm(order) the log of sum |psi|^order, vector_jacobian_prod the (conjugated) product; to_matrix() of a density matrix has trace one and the density-matrix RBM is the RBM of row and column.", "quantifier": "all numbers of sites, hidden units and automorphisms, all parameters, configurations, batches and options", "why_tests_cant": "tests compare with numerical derivatives at random points of small machines, and never check the symmetry orbits or the invariance for all groups", "anchors": ["netket/legacy/machine/rbm.py:28-31", "netket/legacy/machine/rbm.py:93-142", "netket/legacy/machine/rbm.py:144-231", "netket/legacy/machine/rbm.py:277-402", "netket/legacy/machine/rbm.py:592-657", "netket/legacy/machine/rbm.py:700-803", "netket/legacy/machine/jastrow.py:64-253", "netket/legacy/machine/abstract_machine.py:38-152", "netket/legacy/machine/density_matrix/abstract_density_matrix.py:59-120", "netket/legacy/machine/density_matrix/rbm.py:17-85", "netket/legacy/machine/density_matrix/diagonal.py:6-43"]}
{"id": "C178", "title": "Legacy machines: documented behaviour of the remaining options", "statement": "Every hidden unit contributes the factor cosh of its input. The array `out` of log_val receives the values returned. vector_jacobian_prod accepts three-dimensional arrays of configurations. automorphisms=False means the same for RbmSpin and RbmMultiVal; n_hidden is checked against the automorphisms. JastrowSymm is symmetric. A rejected assignment of parameters changes nothing; alpha_a has priority over alpha. to_array(normalize=False) returns the amplitudes, to_array() of a density matrix has trace one, to_matrix(normalize=False) is not normalised, log_trace is the logarithm of the trace. A density-matrix RBM can have automorphisms, and the parameters of the diagonal can be set.", "quantifier": "all parameters, configurations and options", "why_tests_cant": "no test of the legacy machines calls these with the offending arguments", "anchors": ["netket/legacy/machine/rbm.py:28-31", "netket/legacy/machine/rbm.py:161-179", "netket/legacy/machine/rbm.py:343-383", "netket/legacy/machine/rbm.py:604-614", "netket/legacy/machine/rbm.py:710-716", "netket/legacy/machine/rbm.py:800-803", "netket/legacy/machine/jastrow.py:132-147", "netket/legacy/machine/abstract_machine.py:55-64", "netket/legacy/machine/abstract_machine.py:98-127", "netket/legacy/machine/density_matrix/abstract_density_matrix.py:59-143", "netket/legacy/machine/density_matrix/rbm.py:17-37", "netket/legacy/machine/density_matrix/diagonal.py:40-43"]}
{"id": "C179", "title": "Legacy SR: choice of solver and the equation the update solves", "statement": "SR(machine, lsq_solver, use_iterative, svd_threshold): 'gmres', 'cg', 'minres' select the iterative solver of that name and the dense names a dense one, whatever use_iterative says; without a name the iterative solver is minres for real and gmres for complex parameters; unknown names and minres with complex parameters are a RuntimeError, a threshold with an iterative solver a ValueError. scale_invariant_regularization is accepted for dense solvers only. With S the covariance of the log-derivatives of all samples of all processes (the same number on each), compute_update returns the unique solution of (S + diag_shift) x = f for complex parameters, on every process, and a real solution of the real part of the equation for real parameters (iterative: on every process; least squares: in a run of one process). The forces are not changed; a negative info is a RuntimeError; the solution is the first guess of the next call.", "quantifier": "all numbers of processes, samples and parameters, all log-derivatives, forces and positive shifts, all solvers that solve solvable systems", "why_tests_cant": "tests run the optimizer on small machines and only check that the energy goes down", "anchors": ["netket/legacy/optimizer/numpy/stochastic_reconfiguration.py:20-110", "netket/legacy/optimizer/numpy/stochastic_reconfiguration.py:112-224", "netket/legacy/optimizer/numpy/stochastic_reconfiguration.py:226-278", "netket/legacy/optimizer/numpy/stochastic_reconfiguration.py:293-321", "netket/legacy/stats/mpi_stats.py:34-57"]}
{"id": "C180", "title": "Legacy SR: scale invariance, real dense solvers and repr", "statement": "The scale-invariant regularization is that of Becca and Sorella and leaves the forces of the caller alone. For real parameters dense solvers use the samples of all processes, all processes get the same update, and Cholesky solves the same equation as least squares. Processes may have different numbers of samples. A rejected call changes nothing. repr describes the object.", "quantifier": "all samples, forces, shifts and solvers", "why_tests_cant": "no test uses the regularization, more than one process, or repr of a dense SR", "anchors": ["netket/legacy/optimizer/numpy/stochastic_reconfiguration.py:129-134", "netket/legacy/optimizer/numpy/stochastic_reconfiguration.py:199-222", "netket/legacy/optimizer/numpy/stochastic_reconfiguration.py:226-258", "netket/legacy/optimizer/numpy/stochastic_reconfiguration.py:280-291"]}
{"id": "C181", "title": "Legacy drivers: turns of run, sample numbers and gradients of Vmc, SteadyState and Qsr", "statement": "run(n_iter, step_size) performs ceil(n_iter/step_size) turns of step_size optimisation steps each, unless a callback asks to stop; in each turn the driver makes a gradient, updates the parameters, then logs loss and observables and asks every callback, and the loggers are flushed at the end on the root. advance(m) performs m steps. n_samples is rounded up to a multiple of chains times processes. With the same number of samples on every process the gradient of Vmc is the covariance of local energies and log-derivatives over all samples, so on samples representing |psi|^2 exactly it gives the derivative of the energy; with SR the update solves (S + shift) x = F for these samples. The gradient of SteadyState is half the derivative of |L rho|^2/|rho|^2, and that of Qsr the derivative of the negative log-likelihood of the data as computed by nll with the exact norm, with and without SR and whatever shift of exponents is used.", "quantifier": "all numbers of iterations, step sizes, callbacks, loggers, processes, samples, operators, data and differentiable machines", "why_tests_cant": "tests run a few iterations of one example and compare gradients with finite differences at one parameter vector with a tolerance", "anchors": ["netket/legacy/abstract_variational_driver.py:94-247", "netket/legacy/_vmc.py:60-199", "netket/legacy/_steadystate.py:80-301", "netket/legacy/_qsr.py:60-283"]}
{"id": "C182", "title": "Legacy drivers: iterators, lists of observables, reset and defaults", "statement": "run accepts any iterable of loggers and callbacks and calls each of them in every turn; a list of observables as documented; reset starts again from step zero; iteration numbers which are no integers are rejected at the start. Qsr.n_samples is the number of samples drawn and bad arguments are a ValueError. SteadyState uses the documented defaults for observables. Machines with real parameters can be optimised with SR and by Qsr.", "quantifier": "all drivers, arguments and callbacks", "why_tests_cant": "tests use lists, dictionaries of observables and complex machines only, and never call reset", "anchors": ["netket/legacy/abstract_variational_driver.py:94-247", "netket/legacy/_vmc.py:60-199", "netket/legacy/_steadystate.py:80-301", "netket/legacy/_qsr.py:60-283"]}
{"id": "C183", "title": "Quantum geometric tensor on several processes, as a tree, and with dense solvers", "statement": "With R processes holding the same number of samples, the product with QGTOnTheFly, QGTJacobianDense and QGTJacobianPyTree is the product with the tensor of all R times n samples pooled on one process, in all modes and with a shift; the stored gradients of a process are its rows of those of all samples and the scales of rescaling are those of all samples. The three implementations agree with each other for any number of processes. QGTOnTheFly takes dense vectors of the right length only. The matrix given by to_dense of the tree has one column per real and two per complex parameter, ordered as the ravelled split tree, and its product with a ravelled vector is the product of the operator, with and without scale; rescaling adds shift times the diagonal of S. With svd, cholesky, LU or solve and a positive shift, solve(y) gives the x with (S + shift) x = y, for dense and tree Jacobians with real and complex leaves, with and without rescaling, on any number of processes.", "quantifier": "all numbers of processes, samples and parameters, all Jacobians, vectors, leaves, scales and shifts", "why_tests_cant": "tests on several processes are run with two processes and one network and compare with a tolerance", "anchors": ["netket/optimizer/qgt/qgt_onthefly.py:27-166", "netket/optimizer/qgt/qgt_onthefly_logic.py:28-98", "netket/optimizer/qgt/qgt_jacobian_dense.py:36-230", "netket/optimizer/qgt/qgt_jacobian_dense_logic.py:1-290", "netket/optimizer/qgt/qgt_jacobian_pytree.py:36-243", "netket/optimizer/qgt/qgt_jacobian_pytree_logic.py:1-285", "netket/optimizer/solver/solvers.py:21-72"]}
{"id": "C184", "title": "QGTJacobianPyTree: initial guess", "statement": "solve(..., x0=guess) of QGTJacobianPyTree accepts a tree with the structure of the parameters as initial guess.", "quantifier": "all trees, modes and scales", "why_tests_cant": "tests call solve of the tree with an initial guess for real parameters or holomorphic mode only", "anchors": ["netket/optimizer/qgt/qgt_jacobian_pytree.py:202-229"]}
{"id": "C185", "title": "Legacy statistics, estimate_expectations, loggers and random numbers", "statement": "Sums and sizes over processes are those of all data; for shards of equal size mean, var and subtract_mean are those of all data, and statistics gives on every process what netket.stats.statistics gives for all chains on one process. estimate_expectations gives mean and variance of all local values and, on one process with one chain, the covariance of local values and log-derivatives. A run of the JSON logger with data that can be encoded, steps that do not go back and one dictionary per call raises nothing; the file then holds the old entries in mode append, followed by the entries of the calls up to the last of every write_every-th call, the parameter file the machine of the last of every save_params_every-th call, and flush writes everything; the three modes do what they are documented to do. The tensorboard logger writes exactly the numbers of the tree, each under the keys that lead to it. randint gives every integer of its range for draws from intervals of equal length, uniform stays in its range, and a given seed determines the seeds of all processes.", "quantifier": "all numbers of processes, chains and samples, all data, all sequences of calls, intervals, files and trees, all draws", "why_tests_cant": "tests of the legacy statistics run on one process; the loggers are tested with one short run that looks at the existence of files", "anchors": ["netket/legacy/stats/mpi_stats.py:15-137", "netket/legacy/stats/mc_stats.py:30-175", "netket/legacy/variational.py:8-70", "netket/legacy/logging/_json_log.py:1-115", "netket/logging/json_log_old.py:1-156", "netket/logging/tensorboard.py:20-135", "netket/legacy/random.py:1-60"]}
{"id": "C186", "title": "Legacy statistics and loggers: deviations", "statement": "Shards may have different sizes. subtract_mean leaves its argument alone. Names that are no field of Stats are a KeyError and the JSON output determines the mean. The gradient of estimate_expectations is the covariance for any number of chains and the same on all processes; R_hat is given for several chains; n_discard=0 discards nothing. Data that cannot be encoded leave the log file as it was; logging does not change the dictionary it is given; write_every=0 is refused by the constructor; complex numbers are logged. Different numbers have different tags in tensorboard. Without a seed all processes derive their seeds from one number.", "quantifier": "all data, numbers of chains and processes, sequences of calls", "why_tests_cant": "tests use one process, one short run and real data", "anchors": ["netket/legacy/stats/mpi_stats.py:15-57", "netket/legacy/stats/mc_stats.py:44-72", "netket/stats/mc_stats.py:64-109", "netket/legacy/variational.py:46-67", "netket/logging/json_log_old.py:20-156", "netket/logging/tensorboard.py:20-135", "netket/legacy/random.py:10-30"]}
{"id": "C187", "title": "Padded connected elements, numbers of connected elements and derivatives of local values for jax machines", "statement": "get_conn_padded returns one row per configuration, all of one length: the connected elements of the configuration (for LocalOperator and BoseHubbard followed by entries with matrix element zero, for Ising and PauliStrings without padding), for every non-empty batch, for LocalOperator with at least one connected element. n_conn returns the numbers of connected elements. The cost functions applied to a padded row are the local values, for operators and for density matrices. der_local_values_jax returns what the version for other machines returns, that is the derivatives of the local values, for complex parameters with complex log-amplitudes or matrix elements and for real parameters; without centering, for complex log-amplitudes. Arrays that are not two-dimensional are a RuntimeError, rows of a wrong width an AssertionError. The sum and the difference of BoseHubbard operators on the same graph have the sums and differences of the matrix elements.", "quantifier": "all operators built through the API, all batches, all contents of uninitialised memory, all differentiable machines and parameters", "why_tests_cant": "tests compare padded and flattened elements for a few operators and random states; the jax derivatives are compared with a numeric derivative at one point", "anchors": ["netket/operator/_abstract_operator.py:100-233", "netket/operator/_local_cost_functions.py:180-213", "netket/operator/_der_local_values_jax.py:25-175", "netket/operator/_hamiltonian.py:60-110", "netket/operator/_hamiltonian.py:481-600", "netket/operator/_pauli_strings.py:150-260"]}
{"id": "C188", "title": "Padded connected elements and jax derivatives: deviations", "statement": "get_conn_padded works for every operator and every batch. Padding entries belong to the Hilbert space. Derivatives without centering are right for real log-amplitudes and complex matrix elements, and derivatives exist for complex parameters with real log-amplitudes and matrix elements. Lazy adjoints, transposes and squares raise NotImplementedError when their connected elements are asked for. The sum of two BoseHubbard operators is the sum of their matrices, whatever their graphs.", "quantifier": "all operators, batches, machines and graphs", "why_tests_cant": "tests use connected graphs, equal graphs, operators with diagonal elements and complex machines", "anchors": ["netket/operator/_abstract_operator.py:149-157", "netket/operator/_lazy.py:60-180", "netket/operator/_der_local_values_jax.py:25-175", "netket/operator/_hamiltonian.py:481-600", "netket/operator/_hamiltonian.py:700-800"]}
{"id": "C189", "title": "Construction of samplers, and samplers on several devices", "statement": "The constructors of Metropolis samplers succeed for exactly the documented arguments (otherwise TypeError or ValueError) and set every field: n_sweeps to the size of the space if not given, n_chains_per_rank to the smallest positive number with which all processes together have n_chains (default 16) chains; process 0 warns if there are more. MetropolisExchange takes the pairs of a graph within d_max, each once, or the given pairs; operators on another space are refused by init_state. replace changes the given fields only. MetropolisSamplerPmap uses the smallest positive number of chains per device with which all devices of all processes have n_chains chains; in every sequence of reset and sample calls each device runs its own sampler and its rows follow one another in the samples; sample is repeated sample_next; n_steps and acceptance count the moves of all chains, devices and processes.", "quantifier": "all arguments, numbers of processes, devices and chains, all rules and machines, all sequences of calls", "why_tests_cant": "tests construct a few samplers on one process; the sampler on several devices is tested with one device", "anchors": ["netket/sampler/base.py:60-150", "netket/sampler/metropolis.py:204-271", "netket/sampler/metropolis.py:376-527", "netket/sampler/metropolis_numpy.py:284-304", "netket/sampler/metropolis_pmap.py:31-254", "netket/sampler/rules/exchange.py:99-143", "netket/sampler/rules/hamiltonian.py:48-64", "netket/sampler/rules/hamiltonian_numpy.py:50-69", "netket/utils/struct/dataclass.py:411-417"]}
{"id": "C190", "title": "Construction of samplers: deviations", "statement": "A sampler on several devices rounds n_chains to the nearest multiple of the number of devices, warns when it uses another number, and returns samples of the given dtype. Exponents and numbers of chains and sweeps must be positive. A sampler with a new Hilbert space and no given n_sweeps sweeps as often as the new space has sites. Exchange pairs are sites of the space. Every sampler can be printed. acceptance_ratio is None before the first sample.", "quantifier": "all arguments", "why_tests_cant": "tests use valid numbers, one device, the default type, and do not print parallel tempering samplers", "anchors": ["netket/sampler/metropolis_pmap.py:80-158", "netket/sampler/base.py:85-131", "netket/sampler/metropolis_pt.py:412-436", "netket/sampler/metropolis.py:161-179", "netket/vqs/mc_mixed_state.py:126-131", "netket/sampler/rules/exchange.py:137-143"]}
{"id": "C191", "title": "Names of point-group symmetries", "statement": "The name of a symmetry of the plane or of space describes it: translations are named with their vector; rotations by a whole number of degrees with this number, the axis as the integer vector without common factor and the point of the axis nearest to the origin, or the translation along the axis for a screw; reflections with the angle or the normal and the point of the mirror nearest to the origin, or the translation in the mirror for a glide; inversions and rotoreflections with their centre. Coordinates are printed to within 1/2000, and fractions with denominators up to 99 and such multiples of the square root of three exactly and in lowest terms. The point and the translation are the only ones for which the symmetry is its linear part about the point followed by a translation that commutes with it.", "quantifier": "all isometries of the plane and of space with linear parts of whole degrees about axes of integer direction and all translations, all complex Schur decompositions", "why_tests_cant": "tests compare names of a few listed symmetries", "anchors": ["netket/utils/group/_point_group.py:137-353"]}
{"id": "C192", "title": "Generic groups, translation groups and default point groups", "statement": "In a collection of elements that stand for elements of a group, inverse gives the index of an inverse of each element that has one in the collection, the last such. (A @ B)(x) is A applied to every array of B(x), in the order of the elements of A @ B. repr shows every element, or beyond 31 the first and last fifteen. translation_group(axes) consists of the translations by the vectors in their names, which are the sums of the steps along the periodic ones of the given axes, the last axis running fastest; no argument means all axes, axes count from the end if negative and are an IndexError out of range. A point group given to space_group_builder is used with the unit cell of the lattice; otherwise the default of the lattice is used, a function given as default being called once, or RuntimeError.", "quantifier": "all collections and groups, all extents, boundary conditions and numbers of sites per cell, all axes, all sequences of requests", "why_tests_cant": "tests use point and permutation groups and all axes at once", "anchors": ["netket/utils/group/_group.py:104-119", "netket/utils/group/_semigroup.py:146-171", "netket/graph/space_group.py:38-72", "netket/graph/space_group.py:130-177", "netket/graph/lattice.py:557-630"]}
{"id": "C193", "title": "Generic groups, equality of point groups and default groups: deviations", "statement": "product_table of a FiniteGroup gives the index of g^-1 h, and a collection without the inverse of an element is reported. Point groups are equal exactly if they have the same elements in the same order and the same unit cell or none, equality is symmetric and equal groups have equal hashes. translation_group accepts every sequence of axes and every integer. The default point group of a lattice is fixed when the lattice is constructed.", "quantifier": "all collections, all point groups, all axes", "why_tests_cant": "tests do not use the base class, do not compare point groups of different lengths or without unit cell, and use python integers", "anchors": ["netket/utils/group/_group.py:104-139", "netket/utils/group/_point_group.py:392-403", "netket/graph/space_group.py:163-177", "netket/graph/common_lattices.py:112-121"]}
{"id": "C194", "title": "Saved variables are loaded again", "statement": "variables_from_file and variables_from_tar restore what was saved: loading succeeds exactly if every key of the given variables was saved, the result has the keys of the given variables and the saved arrays at their leaves, and is the saved tree itself if the structure is the same. The extension is added exactly if there is no file of the given name. After a run with StateLog that saves every k-th state, number j of the folder or the archive loads the variables of call k*j, other indices of an archive are a KeyError, and appending adds numbers after the largest one while earlier numbers still load what they did.", "quantifier": "all nested dictionaries, all runs, all folders and archives", "why_tests_cant": "tests save and load single states of one model and do not combine the logger with the loader", "anchors": ["netket/vqs/experimental.py:8-75", "netket/logging/state_log.py:60-193"]}
{"id": "C195", "title": "Convolutional layers", "statement": "Conv computes, for every output position and feature, the sum of the kernel times the zero-padded, dilated input below it over the input features of its group, plus the bias. A batch is computed element by element, with the same exceptions as for single inputs. Strides and dilations that are not given, and empty strides, are one. 'SAME' pads both sides alike up to one entry and gives the input length divided by the stride rounded up, 'VALID' pads nothing. Inputs moved by whole strides give outputs moved alike. ConvTranspose is Conv with stride one of the input dilated by the strides, its output has the input length times the stride for 'SAME', which pads both sides alike up to one entry and is the same as 'VALID' if no dilated kernel is longer than the stride, and it is the adjoint of Conv for 'VALID'.", "quantifier": "all shapes, any number of spatial dimensions (ConvTranspose: up to three), all kernels and inputs", "why_tests_cant": "tests check the shapes of a few layers", "anchors": ["netket/nn/linear.py:249-302", "netket/nn/linear.py:341-386"]}
{"id": "C196", "title": "Buffers of BoseHubbard", "statement": "BoseHubbard keeps two arrays into which get_conn and get_conn_flattened write. Whatever was called before on an object and whatever the arrays contain, no call writes outside of them. As long as the dtypes of the batches hold the occupation numbers, the results of get_conn and of get_conn_flattened (with and without padding) are the connected configurations, matrix elements and sections of the operator, with nothing left from earlier calls; padded rows have max_conn_size entries filled up with zeros.", "quantifier": "all graphs, parameters, histories of calls, batches, initial contents of the arrays", "why_tests_cant": "tests call an operator once or on batches of one size and dtype; numba does not check bounds", "anchors": ["netket/operator/_hamiltonian.py:498-500", "netket/operator/_hamiltonian.py:596-654", "netket/operator/_hamiltonian.py:656-744", "netket/operator/_hamiltonian.py:748-789"]}
{"id": "C197", "title": "Results of BoseHubbard and earlier calls", "statement": "The result of get_conn of BoseHubbard for a sample is the same whatever was called before on the object.", "quantifier": "all graphs, parameters, histories of calls, samples", "why_tests_cant": "tests use one dtype", "anchors": ["netket/operator/_hamiltonian.py:596-654", "netket/operator/_hamiltonian.py:770-774"]}
{"id": "C198", "title": "Hamiltonian rule: the operator sampled with", "statement": "The first time sampler.sample is called with HamiltonianRule and given static arguments (operator, machine, chain length, shapes), it proposes with the operator as it is at that time, whatever happened before to this and other operators. Later calls do so as long as the operator was not changed in place since; all proposals are then connected configurations of the operator. sampler.sample_next and HamiltonianRuleNumpy always use the operator as it is.", "quantifier": "all programs of in-place changes and samplings, any number of operators", "why_tests_cant": "tests do not change an operator after it was given to a sampler", "anchors": ["netket/sampler/base.py:455-489", "netket/sampler/rules/hamiltonian.py:66-103", "netket/operator/_hamiltonian.py:342-351", "netket/operator/_local_operator.py:872-905", "netket/sampler/rules/hamiltonian_numpy.py:71-84"]}
{"id": "C199", "title": "Hamiltonian rule and operators changed in place", "statement": "sampler.sample with HamiltonianRule proposes connected configurations of the operator as it is when it is called.", "quantifier": "all programs of in-place changes and samplings", "why_tests_cant": "tests do not change an operator after it was given to a sampler", "anchors": ["netket/sampler/base.py:455-489", "netket/sampler/rules/hamiltonian.py:66-103", "netket/operator/_hamiltonian.py:230-246"]}
{"id": "C200", "title": "Attributes and iteration of histories", "statement": "A column of a History is an attribute of that name unless the class uses the name; other names are an AttributeError, in agreement with `in` and to_dict. iters and values are the time axis and the main column, get returns both, and iterating gives them in pairs, one for each iteration. to_dict has the time axis and all columns.", "quantifier": "all histories and names", "why_tests_cant": "tests read a few attributes", "anchors": ["netket/utils/history.py:157-163", "netket/utils/history.py:196-247"]}
{"id": "C201", "title": "Attributes and copies of histories: deviations", "statement": "A History can be copied, deep-copied and pickled. Every column is an attribute, and every history can be iterated and converted to an array.", "quantifier": "all histories, any recursion limit", "why_tests_cant": "no test copies a history", "anchors": ["netket/utils/history.py:157-163", "netket/utils/history.py:213-247"]}
{"id": "C202", "title": "Metropolis chains reach |psi|^pow", "statement": "With local moves on an unconstrained space (at least two local values), exchange moves over a connected cluster graph, or moves along a connected operator, every configuration (rearrangement, for exchange) is reached from every other one whatever the wavefunction, |psi|^machine_pow is the only stationary density, and the expected fractions of visits tend to it. If there are three or more local values or the modulus is not constant (local), a value occurs twice or the modulus is not constant (exchange), or the operator has a diagonal element, the law of the t-th sample tends to it for every n_sweeps > 0 and every start. For local moves with odd n_sweeps the fractions of samples tend to it for every wavefunction.", "quantifier": "all wavefunctions, powers, sizes, local values, cluster graphs, operators, starting configurations and numbers of sweeps", "why_tests_cant": "tests compare a finite number of samples for a few machines, with statistical tolerances", "anchors": ["netket/sampler/metropolis.py:304-351", "netket/sampler/rules/local.py:42-51", "netket/sampler/rules/local_numpy.py:34-56", "netket/sampler/rules/exchange.py:57-76", "netket/sampler/rules/hamiltonian.py:66-103"]}
{"id": "C203", "title": "Metropolis samples that do not explore the space", "statement": "The samples of MetropolisLocal with the default n_sweeps, and of MetropolisExchange, reach every configuration of the space.", "quantifier": "all wavefunctions, sizes and numbers of sweeps", "why_tests_cant": "tests use random parameters, whose modulus is not constant, and spaces of spins 1/2", "anchors": ["netket/sampler/metropolis.py:268-270", "netket/sampler/metropolis.py:304-351", "netket/sampler/rules/local.py:42-51", "netket/sampler/rules/exchange.py:57-76"]}
{"id": "C204", "title": "Estimates from Metropolis samples converge to the exact values", "statement": "For MetropolisLocal, MetropolisExchange and MetropolisHamiltonian on the spaces where they explore, the average of any function over c chains with n samples each deviates in mean square from its mean with |psi|^machine_pow by at most A/(c n) + B/n^2 wherever the chains start (and by more than eps with at most that probability over eps^2). With machine_pow 2 and MetropolisLocal, the mean computed by the state for any LocalOperator, whatever the division of the samples over ranks, converges so to <psi|O|psi>/<psi|psi>, and the gradient of a Hermitian operator to the F with which 2 Re(conj(v) F) is the derivative of the energy in every direction v.", "quantifier": "all wavefunctions, operators, functions, parameters, starting configurations, numbers of chains, samples and sweeps, and divisions over ranks", "why_tests_cant": "tests compare a finite number of samples with exact values for a few machines with statistical tolerances", "anchors": ["netket/sampler/metropolis.py:304-351", "netket/operator/_local_values.py:1-100", "netket/stats/mpi_stats.py:40-62", "netket/vqs/mc_state.py:595-692"]}
{"id": "C205", "title": "Estimates from exact and autoregressive samples are unbiased", "statement": "With ExactSampler (weights |psi|^machine_pow) and ARDirectSampler (weights |psi|^2) the average of any function over all samples has the weighted mean as expected value and a mean-square error of exactly the weighted variance over the number of samples. For independent samples nk.stats.var with ddof has, on every rank and for every division of the N samples into equal shards, the expected value (N-1)/(N-ddof) times the variance, so the variance in Stats is too small by 1 - 1/N.", "quantifier": "all wavefunctions, networks, functions, powers, numbers of chains and samples, and divisions over ranks", "why_tests_cant": "tests compare a finite number of samples for a few machines with statistical tolerances", "anchors": ["netket/sampler/exact.py:63-157", "netket/sampler/autoreg.py:96-136", "netket/stats/mpi_stats.py:40-122"]}
{"id": "C206", "title": "Legacy jax machines: amplitudes, density matrices, derivatives, parameters and the S matrix", "statement": "exp(log_val) of JaxRbm is the product of cosh(W s + b) (real parameters: always; complex: if no hidden input is nonzero and purely imaginary), JaxRbmSpinPhase has modulus and phase from two such networks, the network of MPSPeriodic is the trace of the product of the matrices selected by the local states, invariant under translation by symperiod; uneven local states and periods that do not divide are refused. NdmSpin is hermitian with positive diagonal for all parameters, and NdmSpin and NdmSpinPhase (with hidden biases) are positive semidefinite on families of configurations without purely imaginary hidden inputs. vector_jacobian_prod is sum conj(J) v, or its conjugate. numpy_unflatten inverts numpy_flatten; the setter refuses other sizes. mat_vec of the legacy SR is the covariance of the derivatives plus the shift (on the fly: holomorphic machines and real ones; from stored derivatives: all), over all processes.", "quantifier": "all parameters, configurations, sizes, families of configurations, vectors, samples and numbers of processes", "why_tests_cant": "the tests of the legacy machines compare numerical derivatives for a few random machines", "anchors": ["netket/legacy/machine/jax.py:60-517", "netket/legacy/machine/_jax_utils.py:29-191", "netket/legacy/machine/density_matrix/jax.py:24-446", "netket/legacy/optimizer/jax/_sr_onthefly.py:67-170", "netket/legacy/optimizer/jax/stochastic_reconfiguration.py:16-185"]}
{"id": "C207", "title": "Legacy jax machines: documented behaviour of the remaining cases", "statement": "Every hidden unit contributes the cosh of its input. NdmSpin without hidden biases is positive semidefinite, and NdmSpinPhase without hidden biases can be evaluated. The amplitude of MPSPeriodic is the trace of the documented product. vector_jacobian_prod returns the same product with and without return_jacobian. SR on the fly solves the equation with the covariance matrix for all machines, as SR from stored derivatives does. The real and imaginary weights of DenseReal are drawn independently. The solver names listed by SR are accepted. numpy_unflatten refuses vectors of a wrong length.", "quantifier": "all parameters, configurations, sizes, vectors, samples, keys and initialisers", "why_tests_cant": "the tests use hidden biases, holomorphic machines and the default options", "anchors": ["netket/legacy/machine/jax.py:168-203", "netket/legacy/machine/jax.py:265-302", "netket/legacy/machine/jax.py:321-323", "netket/legacy/machine/jax.py:436-481", "netket/legacy/machine/density_matrix/jax.py:254-302", "netket/legacy/optimizer/jax/_sr_onthefly.py:88-141", "netket/legacy/optimizer/jax/stochastic_reconfiguration.py:150-167"]}
{"id": "C208", "title": "Legacy CustomSampler kernel: accepted operators, proposals and stationary distribution", "statement": "The kernel of the legacy custom sampler accepts exactly the operators all of whose matrices are symmetric and stochastic, with one non-negative weight for each of at least one matrix; otherwise it raises AssertionError for the matrices and ValueError for the weights. Every call of transition proposes, for each row independently, configuration y from x with probability sum_k (w_k / sum w) <x|O_k|y>, using the two random numbers of that row, independently of the sizes and contents of earlier calls; the corrections are zero. The proposals are symmetric, and the Metropolis chain built on them leaves the target distribution stationary.", "quantifier": "all Hilbert spaces, operators without constant, weights, batches, sequences of calls and random numbers", "why_tests_cant": "the tests sample two fixed move operators and compare histograms", "anchors": ["netket/legacy/sampler/numpy/custom_kernel.py", "netket/operator/_local_operator.py"]}
{"id": "C209", "title": "Legacy CustomSampler kernel: arrays of the caller, constants and equal supports", "statement": "The array of weights passed by the caller is not changed, nor is any other array. Operators with a constant are refused or act as documented. Move operators given as a list of symmetric stochastic matrices are accepted also if two of them act on the same sites.", "quantifier": "all weights, operators, constants and pairs of matrices on the same site", "why_tests_cant": "the tests use lists of weights and operators with disjoint supports", "anchors": ["netket/legacy/sampler/numpy/custom_kernel.py", "netket/operator/_local_operator.py"]}
{"id": "C210", "title": "Legacy torch machine: parameters, derivatives and vector-Jacobian products", "statement": "Assigning n_par numbers to parameters and reading them gives their real parts and leaves the frozen tensors and all shapes unchanged; any other number of values raises ValueError and changes nothing. der_log returns the derivatives of log_val with respect to the parameters, with and without BackPACK. vector_jacobian_prod returns sum_n vec_n conj(d log psi(x_n)), or its conjugate, whether or not the Jacobian is asked for and whatever gradients were left in the module. log_val of a batch has one entry per configuration.", "quantifier": "all modules with differentiable outputs, frozen tensors, parameters, batches and vectors", "why_tests_cant": "the tests compare finite differences of a few random networks", "anchors": ["netket/legacy/machine/torch.py"]}
{"id": "C211", "title": "Legacy torch machine: log_val of a vector and TorchLogCosh", "statement": "log_val of a single configuration is a number, as AbstractMachine documents, and TorchLogCosh computes log cosh.", "quantifier": "all modules, parameters, configurations and arguments", "why_tests_cant": "the tests of the torch machine only check batches, and constants in log psi do not change the sampled distribution", "anchors": ["netket/legacy/machine/torch.py", "netket/legacy/machine/abstract_machine.py:27-29"]}
{"id": "C212", "title": "numba4jax: results of numba functions called from jax", "statement": "For a numba function which fills its outputs and leaves its inputs, as documented, the function returned by numba_to_jax and njit4jax returns these results outside of jit and, with one to four inputs and outputs, compiled for the CPU, whatever the allocated memory contained: one array if one shape was declared, else the collection. On the GPU it raises RuntimeError. vmap along the first axes of all arguments gives, for functions with as many outputs as inputs, the results for the rows.", "quantifier": "all numba functions fulfilling the contract, shapes, arrays, contents of memory and batch sizes", "why_tests_cant": "the tests only use the Hamiltonian rule, whose function has fixed arguments and is never batched", "anchors": ["netket/jax/numba4jax.py"]}
{"id": "C213", "title": "numba4jax: compiled functions with many arguments, and batching", "statement": "Every function that works outside of jit can be compiled. vmap along the first axes works for all functions, in particular for the documented example with three inputs and two outputs and for functions returning one array. Arguments that are not mapped are passed whole, and other axes than the first can be mapped.", "quantifier": "all numba functions fulfilling the contract, shapes, arrays and batch sizes", "why_tests_cant": "no test calls vmap on such a function", "anchors": ["netket/jax/numba4jax.py:69-73", "netket/jax/numba4jax.py:120-124", "netket/jax/numba4jax.py:168-218", "netket/jax/numba4jax.py:283-298"]}
{"id": "C214", "title": "MCState: construction from models of any framework, functions, variables and seeds", "statement": "MCState uses the functions of a flax model, of a pair of functions with two arguments each, of a haiku model, of any other object with init and apply, or the functions given. The variables are those given, otherwise those made by the initialiser from the key of seed; the sampler starts from these with sampler_seed, or with the second part of the split key of seed. Nothing is drawn at random if seed is given. Missing functions, missing variables without initialiser, and two values for one number are ValueErrors. init replaces the variables and drops the samples, and raises RuntimeError without initialiser. Wrapped models refuse mutable.", "quantifier": "all models, functions, variables, seeds, samplers, numbers of samples and processes", "why_tests_cant": "the tests construct states of a few flax models with fixed seeds", "anchors": ["netket/vqs/mc_state.py:104-255", "netket/utils/model_frameworks/base.py", "netket/utils/model_frameworks/jax.py", "netket/utils/model_frameworks/haiku.py", "netket/utils/model_frameworks/flax.py"]}
{"id": "C215", "title": "MCState: documented arguments and frameworks", "statement": "init_fun and apply_fun replace the methods of the model they are given with. A model of no known framework is used as it is. Loading a stored state into a state with a haiku model restores the stored parameters.", "quantifier": "all models, functions, arguments and stored states", "why_tests_cant": "the tests never combine a model with functions, and haiku is an optional dependency", "anchors": ["netket/vqs/mc_state.py:122-186", "netket/utils/model_frameworks/base.py:80-85", "netket/utils/model_frameworks/haiku.py:65-73", "netket/utils/model_frameworks/haiku.py:94-112"]}
{"id": "C216", "title": "struct.dataclass: construction, inheritance, copies, hashes and pytrees", "statement": "The constructor of a netket dataclass takes the fields of the bases first, in order, each once, and follows the rules of python calls; wrong calls are TypeErrors. Arguments are preprocessed by the __pre_init__ of the most derived class that has one, which is given that of its bases. replace makes an object with the given fields changed, the others as before and all caches and the hash cleared. flatten and unflatten give the object again. The hash is that of the fields whatever was done before. A cached property has the value of the method of the most derived class, computed once; precomputing fills all caches, own and inherited.", "quantifier": "all classes (chains of decorated classes with distinct names), arguments, objects reachable by any sequence of operations, and methods", "why_tests_cant": "the tests define a handful of classes", "anchors": ["netket/utils/struct/dataclass.py", "netket/utils/array.py", "netket/utils/group/_point_group.py"]}
{"id": "C217", "title": "struct.dataclass: cached properties with super, positional arguments, replace of PGSymmetry", "statement": "A cached property may use the cached property of the same name of its base through super. A call with too many positional arguments is a TypeError. replace works for every dataclass, in particular for PGSymmetry.", "quantifier": "all classes, objects, arguments and updates", "why_tests_cant": "no test overrides a cached property with super, passes too many arguments, or replaces fields of a symmetry", "anchors": ["netket/utils/struct/dataclass.py:106-129", "netket/utils/struct/dataclass.py:218-232", "netket/utils/group/_point_group.py:40-80"]}
{"id": "C218", "title": "expect and expect_and_grad: the statistics are those of the chains", "statement": "With samples of T steps of C chains per rank, expect returns the statistics of the C time series of local values (for Squared operators of their absolute values squared) of all ranks. expect_and_grad returns the same statistics for Hermitian operators and, with experimental features, for other operators and for squares of operators. Mixed states return the statistics along the chains of the diagonal for operators on the physical space. R_hat is sqrt((T-1)/T + variance of the averages of the chains / variance of all samples); with at least 32 chains the error is that of the averages of the chains. Operators on another space give NotImplemented.", "quantifier": "all samples, numbers of steps, chains and ranks, and local values", "why_tests_cant": "a wrong order of the axes gives the same mean and variance; tests only look at these", "anchors": ["netket/vqs/mc_state.py:448-558", "netket/vqs/mc_state.py:601-694", "netket/vqs/mc_state.py:698-761", "netket/vqs/mc_mixed_state.py:263-288", "netket/jax/_expect.py"]}
{"id": "C219", "title": "Statistics of squared superoperators, of is_hermitian=False, of jax.expect, and gradients of mixed states", "statement": "expect_and_grad of the square of a superoperator (Lindbladian) returns the statistics of expect. expect_and_grad(Squared(O), is_hermitian=False) returns the statistics of Squared(O). jax.expect(..., n_chains=n) returns the statistics of n chains. expect_and_grad of a mixed state works for operators on the physical space, as expect does.", "quantifier": "all samples, numbers of steps, chains and ranks, local values and operators", "why_tests_cant": "tests compare mean and variance only, and never differentiate expectation values of physical operators", "anchors": ["netket/vqs/mc_state.py:497-552", "netket/vqs/mc_state.py:764-847", "netket/jax/_expect.py:46-58", "netket/vqs/base.py:254-270", "netket/vqs/mc_mixed_state.py:263-288"]}
{"id": "C220", "title": "Eigenstates have zero variance and zero gradient, and energies lie above the ground state", "statement": "If the variational state is an eigenvector of the operator, all local values equal the eigenvalue on every batch of configurations (and only then), so for all samples, numbers of chains and ranks expect and expect_and_grad report the eigenvalue as mean with zero variance (error and R_hat are NaN), Squared operators the absolute value squared (zero for stationary states of a Lindbladian), the gradient is zero, and every solution of the stochastic reconfiguration with positive diagonal shift is zero: the optimisation stays where it is. The expectation value of a Hermitian operator is real and never below the lowest eigenvalue, and equals it precisely for ground states.", "quantifier": "all local operators, spaces, states, samples, ranks, Jacobians and diagonal shifts", "why_tests_cant": "ground states are only reached approximately in tests", "anchors": ["netket/operator/_local_values.py", "netket/vqs/mc_state.py:448-558", "netket/vqs/mc_state.py:601-694", "netket/optimizer/qgt/qgt_onthefly_logic.py"]}
{"id": "C221", "title": "What a run reports to its loggers", "statement": "driver.run(n_iter, out, obs, step_size, callback): on rank 0, for containers of loggers and callbacks and a dictionary of observables, every logger is called once per turn, in order, with the step count, the state and the log data of that turn; the log data hold every observable under its name and the loss under its own, then go through the callbacks in order before any logger sees them; the turn in which a callback (or another rank) asks to stop is still logged; afterwards every logger is flushed with the final state. Loggers do not influence the optimisation; other ranks touch no logger. An exception of a logger or callback ends the run at once: earlier loggers have the entry of the turn, later ones do not, nothing is flushed, the parameters are not updated any more. With a JsonLog the log file holds the data accumulated over all turns on top of those of earlier runs, the parameter file the final parameters; with out=<str> previous files are overwritten.", "quantifier": "all drivers (gradient and update functions), observables, losses, callbacks (incl. raising ones and ones which change the log data), flags of other ranks, lists of loggers of any kind, n_iter, step_size > 0, start step, clock readings, contents of existing files", "why_tests_cant": "tests run a few steps with one logger and look at the number of entries; the interplay of stopping, exceptions, callbacks which edit the data, several loggers, existing files and clock readings is not explored", "anchors": ["netket/driver/abstract_variational_driver.py:183-289", "netket/driver/abstract_variational_driver.py:291-303", "netket/logging/json_log.py:149-208"]}
{"id": "C222", "title": "Iterables accepted by run (deviations)", "statement": "run accepts, as documented, any iterable of loggers, any iterable of callbacks and any iterable of observables, and reports every observable. The code: observables in a list make the first turn raise TypeError; loggers in an iterator receive the first turn only and are never flushed; callbacks in an iterator make the first turn raise TypeError; an observable with the name of the loss is replaced by the loss.", "quantifier": "all drivers with a loss, all lists of observables, all iterators of loggers or callbacks, all n_iter > 0, step_size > 0", "why_tests_cant": "tests pass lists, tuples and dictionaries with other names", "anchors": ["netket/driver/abstract_variational_driver.py:28-40", "netket/driver/abstract_variational_driver.py:206-209", "netket/driver/abstract_variational_driver.py:254-271"]}
{"id": "C223", "title": "The trajectories of the optimizers", "statement": "n updates of a driver with Sgd(lr) subtract lr times the sum of the gradients. Momentum(lr, beta): every update is -lr times the sum of all gradients so far damped by beta per step (with nesterov the newest gradient is added to beta times this sum), which is the documented moving average with learning rate lr/(1-beta). AdaGrad: the gradient divided by the root of the initial accumulator plus all squared gradients (the newest included) plus epsilon, never more than lr. RmsProp: the gradient divided by the root of the moving average of squared gradients plus epsilon, minus the squared moving average if centered; the radicand is always positive and no update exceeds lr/sqrt(1-beta). Adam: the first update is lr g/(|g|+eps), and every update is for constant gradients.", "quantifier": "all gradient sequences, numbers of updates, initial parameters, learning rates, decay rates in [0,1), cutoffs > 0", "why_tests_cant": "tests run a few steps of one optimizer on a model and compare energies; closed forms over all sequences are not tested", "anchors": ["netket/optimizer/__init__.py:31-186", "netket/driver/abstract_variational_driver.py:305-325"]}
{"id": "C224", "title": "Documented update rules of the optimizers (deviations)", "statement": "the docstrings of Momentum, AdaGrad and RmsProp give the update rules. The code: Momentum does not multiply the gradient by 1-beta; AdaGrad's accumulator starts at 0.1 by default instead of zero; RmsProp's cutoff is inside the root.", "quantifier": "all learning rates, decay rates, cutoffs and gradients other than zero", "why_tests_cant": "no test compares with the documented formulas", "anchors": ["netket/optimizer/__init__.py:61-88", "netket/optimizer/__init__.py:91-129", "netket/optimizer/__init__.py:147-184"]}
{"id": "C225", "title": "Expectation values on mixed states are physical", "statement": "for an operator on a mixed state: the local values at all configurations, averaged with the diagonal of the density matrix as weights, are Tr(O rho)/Tr rho; for Hermitian operators and positive semidefinite density matrices this number is real and lies between the lowest and highest eigenvalue; for rho = psi psi^dagger it is the expectation value on the pure state; the density matrix of an NDM with real parameters is positive semidefinite on every space, so this holds for every NDM.", "quantifier": "all finite spaces, all operators built by the API, all log-amplitudes, all real NDM parameters, all Hermitian matrices", "why_tests_cant": "tests compare sampled expectation values with exact ones for one small system", "anchors": ["netket/vqs/mc_mixed_state.py", "netket/operator/_local_values.py", "netket/models/ndm.py"]}
{"id": "C226", "title": "The steady-state cost is the norm of the Lindblad equation's right-hand side", "statement": "for a Lindbladian built from a Hermitian Hamiltonian and jump operators, the squared absolute local values computed from the connected elements of get_conn_flattened, averaged over all pairs of configurations with weights |rho|^2, are ||L rho||^2/||rho||^2; the cost is never negative and is zero precisely when rho is stationary.", "quantifier": "all finite local spaces, all Hermitian Hamiltonians and all jump operators built by the API, all log-amplitudes", "why_tests_cant": "tests minimise the cost for one small dissipative chain and compare with a threshold", "anchors": ["netket/driver/steady_state.py", "netket/vqs/mc_mixed_state.py", "netket/operator/_local_liouvillian.py"]}
{"id": "C227", "title": "Hamiltonians on a graph have the symmetries of the graph", "statement": "for every node permutation listed by graph.automorphisms() the matrix elements returned by get_conn of Ising, BoseHubbard, Heisenberg (with and without sign rule) and GraphOperator (equal local spaces, colour-preserving automorphisms, bond operators that do not distinguish their two sites) satisfy H(x[p], x'[p]) = H(x, x'); Ising and Heisenberg are unchanged by flipping all spins and Heisenberg conserves the magnetisation; a GraphOperator with an asymmetric bond operator need not have the symmetry; local_values of a symmetric wave function are equal on relabelled configurations.", "quantifier": "all numbers of sites, all graphs without repeated edges, all their automorphisms, all couplings, all configurations", "why_tests_cant": "tests check a few hamiltonians on small chains and never compare with the automorphisms", "anchors": ["netket/operator/_hamiltonian.py", "netket/operator/_graph_operator.py", "netket/graph/graph.py"]}
{"id": "C228", "title": "The sign rule of Heisenberg is a change of basis that makes the matrix stoquastic", "statement": "on a bipartite graph Heisenberg(sign_rule=True or None) is Heisenberg(sign_rule=False) conjugated with the diagonal sign given by the product of the spins of one sublattice; with J >= 0 its off-diagonal elements are at most zero, negative exactly between configurations differing by an exchange on an edge; without the rule the operator commutes with every operator applying one matrix to all spins; the documented description (flip of Sz on every odd site) does hold.", "quantifier": "all graphs with a two-colouring of their nodes, all couplings, all configurations", "why_tests_cant": "tests compare energies of one small lattice", "anchors": ["netket/operator/_hamiltonian.py:357-438"]}
{"id": "C229", "title": "Exact diagonalisation: lanczos_ed and full_ed agree, are ordered, and bound variational energies", "statement": "for a Hermitian operator and 0 < k < number of states, lanczos_ed returns the k lowest eigenvalues with multiplicities in increasing order, the same with and without compute_eigenvectors, with and without matrix_free and whatever scipy_args; they are the first k of those of full_ed, which are all eigenvalues; with compute_eigenvectors the columns are orthonormal eigenvectors in the same order; the first eigenvalue is a lower bound of the expectation value in every state, reached exactly by its eigenvectors; errors are passed on.", "quantifier": "all Hermitian operators on finite spaces, all k, all keyword dictionaries, all states; the libraries' documented behaviour is a hypothesis (shown satisfiable)", "why_tests_cant": "tests diagonalise one small chain", "anchors": ["netket/exact.py:23-117", "netket/operator/_abstract_operator.py:296-297"]}
{"id": "C230", "title": "The iterative steady_state returns a stationary state of trace one", "statement": "steady_state(method='iterative') starts from rho0 with its trace appended, or from the projector on the first state; if bicgstab returns a solution of the equations it is given, the matrix returned has trace one and the Lindblad generator vanishes on it, so it is the steady state if that is unique; the number info does not matter; a rho0 of the wrong size and an unknown method are ValueErrors.", "quantifier": "all local spaces, Hamiltonians, jump operators, starting matrices and solver results", "why_tests_cant": "tests compare with one small model within a tolerance", "anchors": ["netket/exact.py:120-223", "netket/operator/_local_liouvillian.py:366-443"]}
{"id": "C231", "title": "The SR update is the best approximation of an imaginary-time step", "statement": "Let dp solve the linear system SR builds (quantum geometric tensor of the samples plus diag_shift, right-hand side the gradient of expect_and_grad). For every change v of the parameters (real on real leaves) consider the mean squared distance, over the samples, between the centred change of the log-amplitudes along v and the centred local energies, plus diag_shift times |v|². Then dp has the least such misfit; the misfit of v exceeds it by exactly the squared distance of v and dp in the metric of the shifted tensor; for diag_shift > 0 dp is the only minimiser; conversely a minimiser solves the system along every admissible direction.", "quantifier": "all numbers of samples and parameters, all partitions of the samples over devices, all mixtures of real leaves and leaves with holomorphic dependence, all local energies, all shifts", "why_tests_cant": "tests compare tensors and solvers numerically on random small networks; the relation between the right-hand side and the left-hand side is never tested", "anchors": ["netket/vqs/mc_state.py: grad_expect_hermitian", "netket/optimizer/qgt/qgt_onthefly_logic.py:28-95", "netket/optimizer/preconditioner.py"]}
{"id": "C232", "title": "Operators that respect a constraint work on the constrained space", "statement": "If every local matrix given to LocalOperator connects configurations satisfying a constraint only with such configurations, then get_conn of an allowed configuration returns allowed configurations only (also after matrices on equal sites were merged and sites reordered), to_sparse and to_dense on the constrained space succeed, their entries are the elements of the operator between allowed states, and products with vectors are products with this matrix. In particular Heisenberg, with any sign rule and graph, keeps the magnetisation, and on Spin(s=1/2, N, total_sz) its matrix is the block of the Hamiltonian.", "quantifier": "all local spaces, matrices, supports, constraints, graphs, couplings, magnetisations", "why_tests_cant": "tests use one or two chains with total_sz=0", "anchors": ["netket/operator/_local_operator.py:198-269", "netket/operator/_local_operator.py:509-711", "netket/operator/_abstract_operator.py:235-270", "netket/operator/_hamiltonian.py:370-420", "netket/hilbert/spin.py:54-107"]}
{"id": "C233", "title": "Hiding submodules only renames them", "statement": "_hide_submodules gives every public attribute of a package that has the name of one of its python files (and is not in ignore) the name with an underscore, keeps the values of all other public attributes, removes itself when asked to, and raises nothing; the order of os.listdir and a second call do not matter. dir() of a module treated by hide_unexported lists the names decorated with export in order. netket.optim.X and netket.variational.X are the public attributes of the new modules; other names raise AttributeError.", "quantifier": "all packages, attributes, directory listings, ignore lists", "why_tests_cant": "the result depends on the file system and on import order", "anchors": ["netket/utils/moduletools.py:18-89", "netket/optim.py:24-39", "netket/variational.py:24-39"]}
{"id": "C234", "title": "Hiding submodules loses nothing", "statement": "After _hide_submodules every object that was an attribute of the package can still be reached, under its name or with an underscore; dir() works after hide_unexported, and every name listed by dir(netket.optim) can be used.", "quantifier": "all packages and listings", "why_tests_cant": "needs a clash of names", "anchors": ["netket/utils/moduletools.py:18-89", "netket/optim.py:27-39"]}
{"id": "C235", "title": "The log-pdf of a sampler is the power of the amplitude", "statement": "exp of sampler.log_pdf(model)(pars, σ) is |exp(model(pars, σ))|**machine_pow. Log-pdfs of samplers with equal power compare equal, with equal hash, exactly for the same model; a jitted function given them as static arguments returns the right value at every call.", "quantifier": "all models, parameters, configurations, powers, sequences of calls", "why_tests_cant": "compilation caches depend on the history of calls", "anchors": ["netket/sampler/base.py:160-178", "netket/jax/utils.py:269-295"]}
{"id": "C236", "title": "Log-pdfs that compare equal are the same function", "statement": "If sampler1.log_pdf(model) == sampler2.log_pdf(model) then both are the same function, and a jitted function given the second as a static argument evaluates the second.", "quantifier": "all samplers and models", "why_tests_cant": "needs two samplers with different machine_pow in one process", "anchors": ["netket/sampler/base.py:160-178", "netket/jax/utils.py:281-287"]}
{"id": "C237", "title": "Flat updates of the legacy SR get the shapes of the parameters", "statement": "jax_shape_for_update distributes an update with as many entries as there are parameters over arrays with the shapes of the parameters, in order, every entry once; it inverts the concatenation of a tree; an update that is too short raises TypeError.", "quantifier": "all trees of shapes, all updates", "why_tests_cant": "all shapes", "anchors": ["netket/legacy/vmc_common.py:112-135", "netket/legacy/optimizer/jax/stochastic_reconfiguration.py:245"]}
{"id": "C238", "title": "Updates of the wrong length are rejected", "statement": "jax_shape_for_update raises if the number of entries of the update is not the number of parameters.", "quantifier": "all trees of shapes, all updates", "why_tests_cant": "silent truncation is not an error in the tests", "anchors": ["netket/legacy/vmc_common.py:112-135"]}
{"id": "C239", "title": "Ising and BoseHubbard as matrices, also with a fixed number of particles", "statement": "to_sparse and to_dense of Ising on Spin(1/2, N) and of BoseHubbard on Fock(n_max, N) succeed; their entries are those of the documented Hamiltonians, the matrices are symmetric, products with vectors are products with them. On Fock(n_max, N, n_particles) the matrix of BoseHubbard is the block with this number of particles, and the documented Hamiltonian has no elements between different numbers.", "quantifier": "all graphs without self loops, couplings, cut-offs, numbers of sites and particles", "why_tests_cant": "tests compare small chains", "anchors": ["netket/operator/_hamiltonian.py:250-304", "netket/operator/_hamiltonian.py:596-735", "netket/operator/_abstract_operator.py:235-270", "netket/hilbert/fock.py:40-100"]}
{"id": "C240", "title": "Diagnostic tools report what the system says", "statement": "available_cpus on Linux returns the number of elements of the set whose mask /proc/self/status lists (None for the empty set), however the digits are grouped and whatever surrounds the line; elsewhere the number of multiprocessing. cpu_info on Linux returns the last value of every name of the first block of /proc/cpuinfo under its translated name, the words of the line flags (with sse3 for pni), and AVX and AVX2 exactly when listed. get_link_flags returns the words beginning with -L in order; get_global_mpi_info the commands found. printfmt puts values in the same column at every indentation and check_mpi in the same column of every row, on rank 0 only; _jax_backends lists the backends with devices in order. strip and split remove exactly the white space.", "quantifier": "all texts of the files and outputs of commands, all sets of CPUs, all names, values and indentations that fit", "why_tests_cant": "the tools are not tested, and depend on the machine", "anchors": ["netket/tools/_cpu_info.py:9-32", "netket/tools/_cpu_info.py:52-115", "netket/tools/_common.py:5-48", "netket/tools/_mpi_info.py:6-37", "netket/tools/info.py:27-39", "netket/tools/info.py:142-153", "netket/tools/check_mpi.py:20-57"]}
{"id": "C241", "title": "Diagnostic tools work on every supported system", "statement": "available_cpus always detects a number; exec_in_terminal strips only the last newline; cpu_info works for processors without a line flags; on macOS AVX and AVX2 are reported when sysctl lists them; printfmt prints at every indentation.", "quantifier": "all texts of the files and outputs of commands, all indentations", "why_tests_cant": "the tools are not tested, and depend on the machine", "anchors": ["netket/tools/_cpu_info.py:9-32", "netket/tools/_cpu_info.py:61-115", "netket/tools/_common.py:5-12", "netket/tools/info.py:27-39"]}
{"id": "C242", "title": "Deprecated names act like their replacements", "statement": "A function wrapped by deprecated or deprecated_new_name issues one FutureWarning naming it (and its reason) and then has exactly the result, the effects and the warnings of the function; where the warning is an error the function is not called. For every lattice whose sites are all nodes: site_to_vector(i) and atom_label(i) are the cell and the label of site i, vector_to_site of the cell is its first site (i only for label 0), vector_to_coord and site_to_coord are the position of site i; negative numbers count from the end, others raise IndexError, vectors outside InvalidSiteError. Hilbert spaces with graph= have one site per node, a graph with N other than 1 is a ValueError; Boson is Fock. SRLazyCG and SRLazyGMRES without solver options give the on-the-fly tensor, the shift and the solver.", "quantifier": "all functions, arguments, states, warning filters; all lattices as in C34; all shifts and keyword arguments", "why_tests_cant": "old names are tested for a few values only, and never with warnings as errors", "anchors": ["netket/utils/deprecation.py:22-72", "netket/graph/lattice.py:147-156", "netket/graph/lattice.py:727-766", "netket/hilbert/_deprecations.py:19-43", "netket/hilbert/fock.py:204-220", "netket/optimizer/sr/deprecations.py:25-78"]}
{"id": "C243", "title": "Deprecated names keep their documented arguments", "statement": "Only one of N and graph is accepted; SRLazyCG and SRLazyGMRES accept the options of the solvers; the warnings of the old activation functions name the function to use.", "quantifier": "all arguments", "why_tests_cant": "the old names with options are not tested", "anchors": ["netket/hilbert/_deprecations.py:19-43", "netket/optimizer/sr/deprecations.py:25-78", "netket/optimizer/sr/api.py:71-135", "netket/nn/activation.py:64-81"]}
{"id": "C244", "title": "Legacy samplers on JAX sample from |psi|^machine_pow", "statement": "generate_samples(n) for n > 0 returns n arrays with one row per chain; each is sweep_size moves after the one before, where every chain goes to its proposal if and only if its uniform number is below the ratio of |psi|^machine_pow, with a key of its own; the last one becomes the present state, and next(sampler) is one such sample. Local proposals change exactly one site to another local state, each equally often; exchange proposals exchange the values of one cluster and are their own inverses; any number of such moves satisfies detailed balance for |psi|^machine_pow and leaves it stationary. The constructor and reset(True) of the local sampler give n_chains configurations of local states, drawn with different keys; defaults are machine_pow 2 and one sweep per site; negative numbers are ValueErrors. For JAX machines local and exchange samplers exist, for other machines all.", "quantifier": "all generators, kernels, log-amplitudes, powers, numbers of samples, chains and moves, keys, local states, clusters", "why_tests_cant": "tests compare histograms of a few small machines up to statistical errors", "anchors": ["netket/legacy/sampler/jax/metropolis_hastings.py:9-163", "netket/legacy/sampler/jax/local_kernel.py:4-27", "netket/legacy/sampler/jax/exchange_kernel.py:5-26", "netket/legacy/sampler/jax/__init__.py:6-41", "netket/legacy/sampler/_kernels.py:7-25", "netket/legacy/sampler/metropolis_hastings.py:5-77"]}
{"id": "C245", "title": "Legacy samplers on JAX: documented arguments and resets", "statement": "reset(init_random=True) gives random states; n_chains can be set; generate_samples resets when asked to and returns an array; sweep_size must be positive; all samplers exist for every machine.", "quantifier": "all generators, states and numbers", "why_tests_cant": "the setters and repeated resets are not tested", "anchors": ["netket/legacy/sampler/jax/metropolis_hastings.py:89-148", "netket/legacy/sampler/jax/exchange_kernel.py:25-26", "netket/legacy/sampler/jax/__init__.py:6-41"]}
{"id": "C246", "title": "The text of Stats shows mean, error and variance to the accuracy of the error", "statement": "repr(stats) is 'mean ± error [σ²=variance, R̂=R_hat]', and the parts can be read from it; R̂ is left out exactly when it is NaN and has four decimals otherwise. For an error above 1e-7 mean (also both parts of a complex mean), error and variance have the same number of decimals and differ from the true values by at most a 20th of the error; an error below 1 is written with two digits that are not leading zeros (three when it rounds up to a power of ten), one above 1 with one decimal. For smaller errors, and for those that are NaN or infinite, every number has four digits and a power of ten, and differs from the true value by at most a 2000th of it; NaN and infinities are written by name.", "quantifier": "all real, infinite and NaN means, errors, variances and R_hat", "why_tests_cant": "all numbers; tests compare a few texts", "anchors": ["netket/stats/mc_stats.py:34-49", "netket/stats/mc_stats.py:84-90", "netket/legacy/stats/mc_stats.py:10-23"]}
{"id": "C247", "title": "The text of Stats shows the mean to the accuracy of the error, however small", "statement": "repr(stats) shows the mean up to its error.", "quantifier": "all means and errors", "why_tests_cant": "errors below 1e-7 of large means are not tested", "anchors": ["netket/stats/mc_stats.py:34-49"]}
{"id": "C248", "title": "What error bars, correlation times and R_hat mean", "statement": "nk.stats.statistics depends on the set of chains only, not on their order nor on how they are distributed over processes. For data a x + b with a != 0 the mean is a mean + b, the error is |a| times and the variance |a|^2 times the old one, and tau_corr and R_hat are unchanged. R_hat always lies between sqrt(1 - 1/C) and sqrt(2 - 1/C) for chains of C samples, so below sqrt 2. With at least batch_size chains 0 <= tau_corr <= (C - 1)/2 and error^2 <= variance/n_chains, and for independent equally distributed chains with any correlations inside, the expected squared error_of_mean is (1 - 1/n_chains) times the expected squared deviation of the mean from its true value.", "quantifier": "all complex data, chain numbers and lengths, batch sizes, distributions of finite chains, divisions over processes", "why_tests_cant": "tests compare numbers for a few random data sets with tolerances", "anchors": ["netket/stats/mc_stats.py:112-254", "netket/stats/mpi_stats.py:40-122"]}
{"id": "C249", "title": "R_hat against the Gelman-Rubin ratio", "statement": "R_hat is the Gelman-Rubin ratio sqrt((C-1)/C + B/W), B the variance of the chain means and W the mean variance within the chains.", "quantifier": "all data with more than one chain and W != 0", "why_tests_cant": "tests compare R_hat with its own formula", "anchors": ["netket/stats/mc_stats.py:238-250"]}
{"id": "C250", "title": "Contents of JSON logs", "statement": "The .log file of JsonLog contains the logged data in full: histories of numbers appear under their names, with the structure of lists and dictionaries in which they were logged; every real or integer series is the list of its entries, every complex one the two lists real and imag. From the file the logged histories of finite numbers can be recovered. Complex numbers outside of histories become a pair real, imag, and arrays without dimensions a number.", "quantifier": "all nestings of histories (up to the depth orjson can serialise), all names, lengths, real, integer, boolean and complex series", "why_tests_cant": "tests log a few real observables and look at some keys of the file", "anchors": ["netket/logging/json_log.py:31-54", "netket/logging/json_log.py:174-183", "netket/utils/history.py:219-225"]}
{"id": "C251", "title": "Every logged history can be written to a JSON log and read back", "statement": "Every history logged with JsonLog is written, also if the logged values are arrays, and can be read back with the values it has; a failure to write leaves the previous contents of the file.", "quantifier": "all histories", "why_tests_cant": "tests log scalar observables only, without NaN", "anchors": ["netket/logging/json_log.py:31-54", "netket/logging/json_log.py:174-183"]}
{"id": "C252", "title": "An update of VMC lowers the energy to first order", "statement": "If the samples represent the distribution of the state, the derivative of the energy along every change v of the (real or complex) parameters is 2 sum_k Re(conj(v_k) F_k), where F is the gradient returned by expect_and_grad. Hence, unless the gradient vanishes, the energy is strictly lower after one update for all sufficiently small learning rates: with Sgd, with SR and a positive diagonal shift for every solution of the linear system (at a rate of at least twice the shift times the squared norm of the solution), with AdaGrad and RmsProp in every state they can reach, and with Adam and Momentum in their first step.", "quantifier": "all finite bases, Hermitian operators, differentiable ansatzes, parameters, numbers and distributions of the samples over ranks, learning rates below a bound, hyperparameters in their ranges", "why_tests_cant": "tests run a few optimisations and compare the final energy with a loose bound; that single updates descend is not checked", "anchors": ["netket/vqs/mc_state.py:637-694", "netket/driver/vmc.py:121-146", "netket/driver/abstract_variational_driver.py:305-325", "netket/optimizer/__init__.py:31-184", "netket/optimizer/preconditioner.py"]}
{"id": "C253", "title": "An update of SteadyState lowers the cost to first order", "statement": "On one process, if the samples represent |rho|^2, for real parameters and complex ones entering holomorphically, the derivative of the cost ||L rho||^2/||rho||^2 along every change v of the parameters is 2 sum_k Re(conj(v_k) F_k), where F is the gradient which expect_and_grad returns for the squared Lindbladian. Hence after one update of SteadyState with Sgd the cost is strictly lower for all sufficiently small learning rates, unless the gradient (its real part for real parameters) vanishes.", "quantifier": "all finite spaces, superoperators, ansatzes, real and complex parameters and sets of samples representing |rho|^2", "why_tests_cant": "tests compare the gradient with finite differences for a few models within wide tolerances", "anchors": ["netket/vqs/mc_state.py:764-848", "netket/operator/_der_local_values_jax.py:41-58", "netket/driver/steady_state.py"]}
{"id": "C254", "title": "An update of SteadyState lowers the cost on any number of processes", "statement": "The gradient of the squared Lindbladian and with it the update of SteadyState are the same however the samples are distributed over processes, and lower the cost for small learning rates.", "quantifier": "all distributions of the samples over processes", "why_tests_cant": "tests run with one or two processes and do not look at the direction of single updates", "anchors": ["netket/vqs/mc_state.py:764-848"]}
{"id": "C255", "title": "SR without shift does not depend on the parametrisation", "statement": "Without diagonal shift the change of the log-amplitudes at the samples (up to norm and phase, to first order) by an update of SR is the orthogonal projection of the local energies on the changes the ansatz can make. It is the same for all solutions of the linear system if the tensor is singular, and for all ansatzes which can make the same changes, whatever the number and kind of their parameters, in particular if parameters are rescaled. With a diagonal shift this is not so.", "quantifier": "all samples, local energies, numbers of real and holomorphic complex parameters, distributions over ranks, solutions", "why_tests_cant": "tests solve well-conditioned systems in one parametrisation", "anchors": ["netket/vqs/mc_state.py:637-694", "netket/optimizer/qgt/qgt_onthefly_logic.py:28-95", "netket/optimizer/preconditioner.py"]}
{"id": "C256", "title": "Sums, differences, products and quotients with lazily transposed operators", "statement": "For concrete local operators and the wrappers A.T, A.H and A.H@A around them: p + q, p - q and p * q denote the sum, difference and product of the two matrices (A.H * A and A * A.H included, which stay lazy), p + c, c + p, p - c, c - p, c * p and p * c with a number c denote P + c, P - c, c - P and c P, and -p and p / c the negative and the quotient.", "quantifier": "every Hilbert space with sorted local states and one local dimension, all operators built through the API whose is_hermitian flag is right, every pair of concrete or wrapped operators, all numbers", "why_tests_cant": "Tests add and multiply a few concrete operators; which reflected method Python picks for each combination of classes decides what is computed, and no test forms A - A.H.", "anchors": ["netket/operator/_lazy.py:18-44", "netket/operator/_lazy.py:124-146", "netket/operator/_lazy.py:191-198", "netket/operator/_local_operator.py:320-425", "netket/operator/_local_operator.py:465-474"]}
{"id": "C257", "title": "Adjoints, transposes, conjugates and squares of Ising, PauliStrings and LocalLiouvillian", "statement": "For an operator o of one of these classes: o.is_hermitian is True only if the matrix is hermitian; o.H exists and to_sparse() of it is the conjugate transpose; o.T exists, its to_sparse() is the transpose and o.T.T is o; o.conjugate() exists and is the conjugate; o @ o is the matrix product of o with itself and o.H @ o is O†O; collect() of the transpose and of the adjoint gives a concrete operator.", "quantifier": "all three classes, all parameters and dtypes, all Pauli strings and weights, all Liouvillians (any connected elements), all finite sets of configurations", "why_tests_cant": "Tests of special Hamiltonians use real Python floats and hermitian Pauli strings only, so is_hermitian is never wrong and NotImplementedError paths are not taken.", "anchors": ["netket/operator/_hamiltonian.py:112-180", "netket/operator/_abstract_operator.py:46-125", "netket/operator/_abstract_operator.py:313-328", "netket/operator/_lazy.py:47-202", "netket/operator/_pauli_strings.py:164-172", "netket/operator/_local_liouvillian.py:82-88"]}
{"id": "C258", "title": "Connectedness and bipartiteness of graphs, and what Heisenberg makes of them", "statement": "Graph.is_connected() of a graph with nodes is True exactly if there is a path between every two nodes, and then distances() has only finite, symmetric entries below n_nodes. Graph.is_bipartite() is True exactly if the nodes can be given two colours so that every edge connects different colours, and False exactly if there is a closed walk with an odd number of steps. A disjoint union is bipartite exactly if both graphs are and never connected if both have nodes. Heisenberg(sign_rule=True) raises ValueError exactly on graphs with an odd closed walk, and every operator Heisenberg returns is the operator without sign rule up to signs of the basis states.", "quantifier": "all graphs, all edges and colours, all couplings, all values of sign_rule", "why_tests_cant": "Tests check is_bipartite of a few lattices of fixed size; the statements are about all graphs, all pairs of nodes and all walks.", "anchors": ["netket/graph/graph.py:133-137", "netket/graph/graph.py:192-193", "netket/graph/graph.py:263-267", "netket/operator/_hamiltonian.py:362-426"]}
{"id": "C259", "title": "Which predefined lattices are connected and bipartite", "statement": "Grid(extent, pbc) with positive extents, at least one of them above 1 or periodic, is_connected(); it is_bipartite() exactly if every periodic direction has an even number of cells or a single cell. Hypercube, Chain, Square and Cube with length**n_dim sites are connected, and bipartite exactly if they are open or the length is even or 1. Triangular, Honeycomb, Kagome, BCC, FCC, Diamond and Pyrochlore are connected. Honeycomb and Diamond are bipartite for all extents and boundaries. BCC is bipartite if every periodic extent is even, and not if a periodic extent is odd and at least 3. Kagome and Pyrochlore never are, and Triangular and FCC are not once every extent is at least 2.", "quantifier": "all dimensions, extents and boundary conditions", "why_tests_cant": "Tests look at a few grids of fixed size; the statement is about all extents in all dimensions, including the short periodic axes where the neighbours coincide.", "anchors": ["netket/graph/lattice.py:281-331", "netket/graph/common_lattices.py:63-206", "netket/graph/common_lattices.py:209-436", "netket/graph/graph.py:133-137"]}
{"id": "C260", "title": "What the masked layers compute", "statement": "MaskedDense1D gives at site t the bias plus the sum of the features of all earlier sites (and of t, unless exclusive) times the kernel. MaskedConv1D gives the bias plus the kernel times the inputs at t, t - dilation, t - 2 dilation, ... (starting one dilation earlier if exclusive), last kernel entry first, with zeros outside of the chain, for the input features of the group. MaskedConv2D adds kernel entry (a, b) times the site h-1-a dilations above and b - w//2 dilations to the right exactly if this is a site of the lattice that comes before the output site in the order of the rows (or is the site itself, unless exclusive).", "quantifier": "all shapes, kernels, dilations, groups and inputs over any commutative semiring", "why_tests_cant": "Tests check on which inputs the outputs depend for a few sizes (a layer that drops inputs it may use passes them), not the values.", "anchors": ["netket/nn/masked_linear.py:38-110", "netket/nn/masked_linear.py:144-214", "netket/nn/masked_linear.py:250-328"]}

#!/usr/bin/env python3
"""Single source for properties.jsonl and the per-property part of DESIGN.md."""
P = []
def p(id, title, statement, quantifier, why, anchors, plan):
    P.append(dict(id=id, title=title, statement=statement, quantifier=quantifier,
                  why_tests_cant=why, anchors=anchors, plan=plan))

p("C01", "Homogeneous Hilbert indexing is a bijection in lexicographic order",
  "For an unconstrained homogeneous Hilbert space with any strictly sorted list of d>=1 local values and any number N of sites, numbers_to_states maps 0..d^N-1 one-to-one onto the valid configurations, states_to_numbers is its two-sided inverse, and numbering agrees with the lexicographic order of configurations (first site most significant).",
  "every local dimension, every list of local values, every number of sites, every index and every valid configuration",
  "the state space is exponential in N and N, d are unbounded; tests sample a few small spaces",
  ["netket/hilbert/hilbert_index.py: HilbertIndex", "netket/hilbert/homogeneous.py: HomogeneousHilbert._numbers_to_states/_states_to_numbers"],
  "Executable digit loop number_to_state/state_to_number; round trips, range and strict monotonicity w.r.t. List lexicographic order by induction on N.")
p("C02", "Constrained Hilbert spaces enumerate exactly the allowed states",
  "For a homogeneous space with an arbitrary constraint, all_states lists every configuration satisfying the constraint exactly once, in lexicographic order, and states_to_numbers/numbers_to_states are mutually inverse on it.",
  "every constraint predicate, local dimension, number of sites, index and configuration",
  "constraint functions are arbitrary user callables; no finite set of them covers the quantifier",
  ["netket/hilbert/homogeneous.py: _get_hilbert_index, _gen_to_bare_numbers, _to_constrained_numbers_kernel"],
  "bare numbers = filtered range; binary search modelled as searchsorted. Rejection part is false of the code: searchsorted only raises past the end; negation with witness, positive part proved (_partial).")
p("C03", "TensorHilbert indexing is a bijection compatible with its factors",
  "For a product of discrete spaces, the index of a concatenated configuration is the mixed-radix combination of the factor indices, and states_to_numbers and numbers_to_states are mutually inverse on 0..prod(n_states)-1.",
  "every list of factor spaces with consistent index maps, every index and configuration",
  "arbitrary numbers and sizes of factors",
  ["netket/hilbert/tensor_hilbert.py: TensorHilbert._numbers_to_states/_states_to_numbers"],
  "Factors as records (size, n_states, toState, toNum) with a round-trip law; divmod loop from the last factor and cumulative products modelled literally.")
p("C04", "DoubledHilbert indexes (row, column) pairs consistently with density matrices",
  "In a doubled space, index = row*n_states + column, both halves are recovered by numbers_to_states, and size_at_index of site i equals the physical space's local dimension at i mod size.",
  "every physical space, every pair of indices, every site",
  "unbounded spaces; the inhomogeneous case is an interaction of two classes",
  ["netket/hilbert/doubled_hilbert.py: DoubledHilbert", "netket/nn/utils.py: to_matrix"],
  "Same record as C03. The shape part is false when the physical space is a TensorHilbert (ndarray * 2); negation with witness plus positive theorem for tuple shapes.")
p("C05", "Too large indices and wrong-size states are rejected",
  "numbers_to_states raises for every number >= n_states and states_to_numbers raises for every configuration of the wrong length.",
  "every natural number, every space",
  "quantifies over all integers",
  ["netket/hilbert/discrete_hilbert.py: numbers_to_states, states_to_numbers"],
  "Checks modelled over Int with an error value. Negative numbers are accepted by the code: negation with witness, partial for numbers >= n_states.")
p("C06", "flip_state changes exactly the requested site to a different valid local state",
  "For every valid configuration and site, flip_state returns a configuration that is again valid site by site, differs from the input at that site and only there, and reports the old value; every other local value is reachable for some random draw.",
  "Spin, Fock, Qubit, CustomHilbert with increasing local states, products of them, doubled homogeneous spaces; every configuration, site and random draw",
  "random draws and spaces are unbounded",
  ["netket/hilbert/random/*.py: flip_state_scalar"],
  "Random draw = explicit argument. Spin-1/2, generic spin, Fock, Qubit, Custom, Tensor, Doubled kernels. Custom with unsorted local states and Doubled over Tensor are false: negations.")
p("C07", "Random states of a constrained space satisfy the constraint",
  "random_state of a Fock space with n_particles (n_max finite) has total n_particles and every occupation in 0..n_max; random_state of a Spin space with total_sz has the required magnetisation and valid local values.",
  "every number of sites, cut-off, particle number and every sequence of random draws",
  "all random sequences",
  ["netket/hilbert/random/fock.py", "netket/hilbert/random/spin.py"],
  "Loop of single-particle insertions with the random choice as an arbitrary oracle over the currently non-full sites; permutation of a fixed multiset for spin 1/2.")
p("C08", "Partial trace of a Hilbert space keeps the right sites",
  "ptrace(sites) of Fock/Spin/Tensor spaces for distinct sites is the space of the remaining sites: its size is size minus the number of removed sites and its local dimensions are those of the kept sites in order; tracing everything gives None; it always returns on unconstrained finite Spin/Fock/Qubit products, and sites outside the space are rejected.",
  "every space and every list of distinct sites",
  "arbitrary nested products",
  ["netket/hilbert/tensor_hilbert.py: ptrace", "netket/hilbert/fock.py: ptrace", "netket/hilbert/spin.py: ptrace"],
  "Shape-level model of ptrace on sub-space lists; specification by filtering the list of all sites.")
p("C09", "Powers and products of Hilbert spaces behave like tensor powers and products",
  "Whenever (hi ** n) returns it has n*size sites and n_states^n states; whenever (a * b) returns it has the concatenated local dimensions and n_states product; on unconstrained finite Spin/Fock/Qubit products both always return.",
  "every space and exponent",
  "unbounded sizes",
  ["netket/hilbert/discrete_hilbert.py: __mul__", "netket/hilbert/fock.py: __pow__", "netket/hilbert/spin.py: __pow__", "netket/hilbert/tensor_hilbert.py: __mul__"],
  "Model of __mul__/__pow__ on space descriptions. Powers of constrained spaces raise UnboundLocalError instead: negation, partial for unconstrained.")
p("C10", "LocalOperator connected elements are the matrix elements of the sum of its local terms",
  "For every configuration x and x', the sum of the matrix elements returned by get_conn(x) at x' equals the constant times delta(x,x') plus the sum over the local terms of the local matrix entry when x and x' agree off the term's support (zero otherwise).",
  "every list of local terms, supports, matrices over any commutative ring, every local dimension and configuration",
  "operators and configurations are unbounded",
  ["netket/operator/_local_operator.py: _append_matrix, _get_conn_flattened_kernel, get_conn_flattened"],
  "Kernel modelled with precomputed diagonal / off-diagonal tables as lists of (mel, newlocal); specification is the plain mathematical embedding.")
p("C11", "The order in which acting_on is listed does not matter",
  "LocalOperator(hi, M, acting_on) with permuted acting_on and correspondingly permuted M represents the same operator whenever the listed sites have equal local dimension or the list is sorted: terms are canonicalised to sorted support without changing the matrix elements.",
  "every support order of sites of equal local dimension, every matrix",
  "all permutations and dimensions",
  ["netket/operator/_local_operator.py: _reorder_kronecker_product, _add_operator"],
  "Reordering modelled by the code's index arithmetic. False for inhomogeneous local dimensions: negation with sizes (2,3); proved for homogeneous dimensions.")
p("C12", "Sums, differences and scalar multiples of local operators act linearly",
  "The matrix of A+B, A-B, A+c, c*A is the corresponding combination of the matrices of A and B, whatever the overlap of their supports.",
  "all pairs of operators, supports and scalars",
  "unbounded operator families",
  ["netket/operator/_local_operator.py: __iadd__, __imul__, _add_operator, __add_new_operator__"],
  "Term-list model merging equal supports and inserting new ones; semantics = sum of embeddings.")
p("C13", "Product of local operators is the matrix product",
  "On spaces with equal local dimensions the matrix of A@B (and of A after A@=B) is the product of the matrices of A and B, including the constant parts and overlapping supports.",
  "all pairs of operators on spaces with equal local dimensions",
  "unbounded",
  ["netket/operator/_local_operator.py: _concrete_imatmul_, _multiply_operator"],
  "Embedding on union support of each pair of terms; composition law of embeddings proved for arbitrary supports.")
p("C14", "Building or combining operators never changes other operators or user arrays",
  "copy, transpose, conjugate, A+B, z*A, -A, A/z leave every existing array and operator unchanged in every reachable heap, and A+=B with an operator A that shares no buffer changes only A.",
  "every reachable heap and operands",
  "aliasing only shows after particular histories",
  ["netket/operator/_local_operator.py: __init__, _add_operator, __iadd__, __imul__, copy"],
  "Heap of matrix buffers with references. The code stores np.asarray views: negations with witnesses (constructor and iadd), partial for the copying operations.")
p("C15", "is_hermitian never claims a non-hermitian operator is hermitian",
  "If op.is_hermitian is True then the represented matrix equals its conjugate transpose, for every history of constructors, sums, products with real scalars and real constants; for PauliStrings always.",
  "every construction and arithmetic history with self-adjoint scalars and constants",
  "all operator expressions",
  ["netket/operator/_local_operator.py: __init__, __mul__, __iadd__, _concrete_imatmul_"],
  "Flag as a field updated as in the code. False (1j*sx): negation; partial for constructor, sums and real scalings.")
p("C16", "Lazy adjoint, transpose, conjugate and square wrappers denote what they say",
  "Every wrapper expression built from transpose, H, conj and squares has the matrix it denotes (to_sparse), transpose() of any expression is the transposed matrix; T, conj, conjugate(concrete=False), H (except of a transposed square), collect of wrappers around concrete operators and @ of concrete operators and wrappers around them, whenever they return, denote transpose, conjugate, adjoint, the same matrix and the product.",
  "all nestings of the wrappers, with the stated exceptions",
  "unbounded nesting",
  ["netket/operator/_lazy.py: Transpose, Adjoint, Squared", "netket/operator/_abstract_operator.py: H, T, conjugate, __matmul__"],
  "Expression type with a rewriting function that mirrors the methods and denotation into matrices over a star ring. Two rewrite rules are wrong (concrete conjugate of Transpose, conjugate of Squared): negations; soundness of the others proved.")
p("C17", "max_conn_size bounds the number of connected elements and padding preserves them",
  "get_conn_padded contains exactly the connected elements followed by entries with zero matrix element, all rows of equal length (LocalOperator, PauliStrings, BoseHubbard); max_conn_size bounds the number of entries per row for every LocalOperator returned by the constructor with at least one term, or without diagonal entry.",
  "every operator and configuration batch, with the stated restriction of the bound",
  "worst-case row must be covered",
  ["netket/operator/_local_operator.py: max_conn_size, _get_conn_flattened_kernel", "netket/operator/_abstract_operator.py: get_conn_padded"],
  "Count model of the kernel. False for constant-only operators (0 reported, 1 returned): negation; bound proved when nonzero diagonal accounting applies; padding theorem for rows.")
p("C18", "Batched connected elements are the concatenation of single-configuration results",
  "get_conn_flattened on a batch returns, row after row, the result of each configuration alone, and sections are the running totals of the row counts, so that splitting at sections recovers every row; n_conn equals the row lengths.",
  "every batch and operator",
  "all batch sizes",
  ["netket/operator/_local_operator.py: _get_conn_flattened_kernel", "netket/operator/_abstract_operator.py: n_conn", "netket/operator/_pauli_strings.py", "netket/operator/_hamiltonian.py"],
  "Generic flatten with sections and np.split; exact inverse theorem for all row lengths.")
p("C19", "to_sparse/to_dense agree with get_conn and with applying the operator",
  "Entry (i,j) of to_dense is the sum of the matrix elements from state i to state j, and applying the operator to a vector equals multiplication with that matrix, for operators whose connected configurations stay in the space.",
  "every operator that stays in its indexable space",
  "matrix sizes unbounded",
  ["netket/operator/_abstract_operator.py: to_sparse, to_dense, to_linear_operator"],
  "CSR construction from sections modelled with duplicate summation; equality with Finset sums.")
p("C20", "PauliStrings represent the weighted sum of Pauli products",
  "For every list of strings over I,X,Y,Z and weights, the connected elements of sigma give exactly the matrix of sum_k w_k P_k, including the phases of Y.",
  "every number of qubits, strings, weights and configurations",
  "4^N strings",
  ["netket/operator/_pauli_strings.py: PauliStrings, _flattened_kernel"],
  "Grouped representation (flip set -> list of (weight, z-sites)) against the recursive tensor product of 2x2 matrices over a commutative ring with i^2=-1.")
p("C21", "Ising Hamiltonian rows equal the operator J sum szsz - h sum sx",
  "For every graph, h and J, get_conn of x returns x with energy J*sum x_i x_j and each single flip with -h, which is the matrix of the corresponding sum of local operators; n_conn is N+1 for every x.",
  "every graph and configuration",
  "all graphs",
  ["netket/operator/_hamiltonian.py: Ising"],
  "Kernel loop vs. sum of embedded local 2x2 and 4x4 matrices.")
p("C22", "BoseHubbard conserves particles, respects the cut-off and stays within max_conn_size",
  "On graphs without self loops the connected elements of BoseHubbard are the documented matrix, which is symmetric; every connected configuration keeps the total occupation and stays in 0..n_max, and at most 1+2|E| are returned.",
  "every graph without self loops, cut-off, parameters and configuration",
  "all graphs and occupations",
  ["netket/operator/_hamiltonian.py: BoseHubbard"],
  "Kernel modelled with symbolic sqrt amplitudes (squares). Conversion part false (U/2 factor): negation; the rest proved.")
p("C23", "Lindbladian matrix elements, trace and hermiticity preservation",
  "When every operator announces enough room (max_conn_size), the batches returned by get_conn_flattened of a LocalLiouvillian are the matrix of rho -> -i(Hnh rho - rho Hnh†) + sum L rho L†, so that for hermitian H the trace of L(rho) vanishes for every rho and L(rho†)=L(rho)†; jump operators may be added later; get_conn returns the same for pairs whose two rows of Hnh have equal length.",
  "every Hamiltonian, jump operators with enough room, density matrix and dimension",
  "continuous inputs, all dimensions",
  ["netket/operator/_local_liouvillian.py: LocalLiouvillian"],
  "Matrices over ℂ indexed by any finite type; row enumeration = code's three loops. Padding to max over diff(sections) false for the first batch element: negation.")
p("C24", "Hamiltonian objects multiply in the order written",
  "For special Hamiltonians (Ising, BoseHubbard...) and any local operator B, B @ H and H @ B denote the matrix products in that order.",
  "all operators",
  "non-commuting pairs",
  ["netket/operator/_hamiltonian.py: SpecialHamiltonian._op__rmatmul__"],
  "Model of dispatch. The reversed product is computed in the wrong order: negation with non-commuting witness; partial for H @ B.")
p("C25", "GraphOperator is the sum of its site and bond terms over the graph",
  "GraphOperator with site operators and bond operators with colours, or with exactly one bond operator without colours, matrices given by value, has the matrix sum over nodes of site terms plus sum over matching edges of bond terms; Heisenberg has the documented matrix; no operators at all, a graph of another size or a list of colours of another length raise ValueError.",
  "every graph, colouring and operator list of this form",
  "all graphs",
  ["netket/operator/_graph_operator.py: GraphOperator"],
  "List-of-terms model. Site-only construction fails an assertion: negation; sum theorem proved.")
p("C26", "History keeps every appended value in order",
  "Appending items with the keys of the history and an explicit time, or histories with the same keys, keeps every entry and its order; histories accumulated from logs in which every key keeps its kind show exactly the logged times and values; indexing and slicing return the corresponding entries; wrong keys of histories and wrong indices are rejected.",
  "every sequence of such items, all indices and slices",
  "arbitrary append histories",
  ["netket/utils/history.py: History, append, accum_in_tree"],
  "State machine over columns. Dict-append violates equal lengths (missing key, no explicit iteration): negation; partial for well-formed appends.")
p("C27", "JsonLog never holds back more than write_every entries",
  "At any point during a run the file on disk equals the history as of the last flush, at most write_every-1 entries are missing from it, and after flush it equals the whole history.",
  "every write_every and sequence of log calls and flushes",
  "all call histories",
  ["netket/logging/json_log.py: JsonLog"],
  "Counters as state machine; invariant by induction on operations.")
p("C28", "A crash while logging never loses previously flushed data",
  "If the process stops at any point of a flush, the file still contains either the previous or the new complete log.",
  "every crash point of every flush",
  "needs crash injection at every write",
  ["netket/logging/json_log.py: JsonLog._flush_log"],
  "Flush as a list of file-system steps (truncate, write chunks). False: the file is truncated in place; negation, partial for crashes outside a flush.")
p("C29", "StateLog writes every k-th state to a fresh name",
  "With save_every=k the states of calls 0,k,2k,... are stored under consecutive numbers and no earlier file is overwritten: in mode 'write' from number 0, in mode 'append' on a target with files after the largest existing number, in mode 'fail' on a new folder from number 0.",
  "every call count and prior directory content with numbered files",
  "all histories",
  ["netket/logging/state_log.py: StateLog"],
  "State machine with a map of file names. Append on an empty target raises: negation; partial otherwise.")
p("C30", "A driver performs exactly the requested number of updates",
  "run(n_iter, step) / iter perform turns 0..⌈n_iter/step⌉-1 unless stopped by a callback, each logging the state before its updates and performing step updates, so that step_count counts the updates performed; advance(n) performs exactly n.",
  "every n_iter, step, callback behaviour and logger",
  "all schedules of callbacks",
  ["netket/driver/abstract_variational_driver.py: iter, run, advance"],
  "State machine with stop callbacks as arbitrary predicates. Exact count false when step does not divide n_iter: negation; theorem with ceil(n/step)*step and exactness when step divides n.")
p("C31", "EarlyStopping: exact condition",
  "The callback returns False (stop) exactly when the loss is at most the baseline, or at least `patience` steps passed since the last call that was at least as good as all before it and the present loss is larger than the loss of that call minus min_delta.",
  "every sequence of losses and parameters",
  "all loss histories",
  ["netket/callbacks/earlystopping.py: EarlyStopping"],
  "State machine over ordered losses. min_delta is not honoured in the tracking of the best value as documented: negation; theorem for min_delta=0.")
p("C32", "Timeout stops a run at the first call after the limit",
  "Timeout returns True for every call within `timeout` seconds of the first call and False afterwards.",
  "every sequence of clock readings",
  "all schedules",
  ["netket/callbacks/timeout.py: Timeout"],
  "State machine with a monotone clock as input.")
p("C33", "Preconditioner restart policy follows its documentation",
  "With solver_restart=False the previous solution is used as the starting point of the next linear solve, with True every solve starts fresh.",
  "every sequence of gradients and solvers",
  "history-dependent",
  ["netket/optimizer/preconditioner.py: LinearPreconditioner"],
  "State machine with an arbitrary solver. The code does the opposite: negation and the exact behaviour proved.")
p("C34", "Lattice site numbering is a bijection with basis coordinates",
  "For every extent and number of basis sites, the site ids produced from (cell coordinates, basis index) are 0..n_sites-1, one-to-one, row-major, and id_from_basis_coords inverts basis_coords.",
  "every dimension, extent and basis",
  "unbounded dimensions",
  ["netket/graph/lattice.py: create_sites, id_from_basis_coords, id_from_position"],
  "Row-major enumeration by ndindex; mixed-radix round trip by induction on dimensions.")
p("C35", "Grid edges are exactly the nearest neighbour pairs",
  "Grid(extent, pbc), with a direction longer than one site or periodic, connects two sites iff they differ by one unit along exactly one direction (modulo the extent on periodic axes), each edge is listed once and there are no loops.",
  "every dimension, positive extent and boundary condition other than a single open site",
  "unbounded",
  ["netket/graph/common_lattices.py: Grid", "netket/graph/lattice.py: create_sites, get_edges, get_true_edges"],
  "Shell of cells around the lattice, naive edges, wrapping and simplification modelled; membership iff and no-duplicates theorems; refuted for the single open site, where the constructor fails.")
p("C36", "Graph reports the edges and colours it was given",
  "Graph(edges) has exactly the given undirected edges with their colours, each edge accessible through edges(return_color, filter_color), symmetric adjacency lists, and inconsistent edge lists are rejected; Edgeless(n) has n nodes and no edges.",
  "every edge list",
  "all graphs",
  ["netket/graph/graph.py: Graph, _clean_edges, DoubledGraph"],
  "List model of cleaning and filtering; rejects malformed colours.")
p("C37", "A lattice has all its sites as nodes",
  "Every lattice has n_nodes equal to the number of unit cells times the number of basis atoms.",
  "every lattice",
  "boundary cases",
  ["netket/graph/lattice.py: Lattice.__init__"],
  "Node count computed from edges only: negation for the open one-site chain, partial when the last site has an edge.")
p("C38", "Permutation products compose as maps",
  "For permutations p,q of a PermutationGroup, (p@q)(x) = p(q(x)) for every array x and the product's array representation agrees; whenever a product of semigroup elements is formed it acts as the composed map, in any bracketing; products of elements other than Identity() are always formed.",
  "all permutations and arrays",
  "n! permutations",
  ["netket/utils/group/_permutation_group.py: product", "netket/utils/group/_semigroup.py: Composite"],
  "Permutation action as list gather; composition law; Composite normal form soundness.")
p("C39", "Group inverse and product tables are correct",
  "For a closed permutation group without duplicates, inverse[i] is the index of the inverse of element i and product_table[g,h] is the index of g^{-1}h; an unclosed set is rejected.",
  "every permutation set",
  "n! group orders",
  ["netket/utils/group/_permutation_group.py: inverse, product_table", "netket/utils/group/_group.py"],
  "Lookup-table construction modelled with dictionary semantics; correctness and rejection for all sets.")
p("C40", "remove_duplicates keeps one representative of every element",
  "remove_duplicates returns the distinct elements in first-occurrence order; the returned inverse indices refer to the distinct canonical forms in lexicographic order.",
  "every list of elements",
  "all lists",
  ["netket/utils/group/_group.py: FiniteGroup.remove_duplicates", "netket/utils/group/_permutation_group.py: remove_duplicates"],
  "np.unique model. Inverse indices refer to sorted order: negation; distinctness and coverage proved.")
p("C41", "Conjugacy classes partition the group",
  "conjugacy_classes rows are disjoint, cover the group, and each row is closed under conjugation and contains conjugates of its representative only; inverse map returns the class of each element.",
  "every finite group",
  "all groups",
  ["netket/utils/group/_group.py: conjugacy_table, conjugacy_classes"],
  "Loop over unvisited elements modelled over an abstract finite group given by its product table.")
p("C42", "Point-group affine maps compose and invert",
  "For point-group symmetries given by a matrix and translation, product, preimage and change_origin satisfy the group laws on every coordinate vector.",
  "all matrices, vectors, dimensions",
  "continuous inputs",
  ["netket/utils/group/_point_group.py: PGSymmetry"],
  "(d+1)x(d+1) affine matrices over a field.")
p("C43", "Little-group irreps lift to complex characters unchanged",
  "Characters of little-group irreps embedded in the full point group equal the character table entries on the little group and zero elsewhere.",
  "every group",
  "all groups with complex characters",
  ["netket/graph/space_group.py: _little_group_irreps"],
  "Writing complex values into a real array drops the imaginary parts: negation (C3), partial for real tables.")
p("C44", "Metropolis transitions satisfy detailed balance",
  "For every strictly positive unnormalised density and every proposal reported with its log correction, the acceptance rule makes the chain reversible with respect to the density, hence stationary; in particular with local moves on spaces with sorted local states and with exchange moves.",
  "every finite state space, density and proposal kernel",
  "distributional statement over all densities",
  ["netket/sampler/metropolis.py: _sample_next", "netket/sampler/rules/local.py", "netket/sampler/rules/exchange.py", "netket/sampler/rules/hamiltonian.py"],
  "Transition matrix q(x,y) min(1, pi(y)/pi(x) * corr) over the reals; local, exchange and Hamiltonian rules' proposal matrices from the code.")
p("C45", "Exchange moves conserve the constraint",
  "Every configuration proposed by the exchange rule for sites of the lattice is a permutation of the current one, hence keeps total magnetisation/particle number along whole chains; clusters contain exactly the pairs within d_max.",
  "all graphs, configurations and draws",
  "all draws",
  ["netket/sampler/rules/exchange.py: ExchangeRule, compute_clusters"],
  "Swap model; List.Perm theorem lifted to chains of any length.")
p("C46", "Acceptance statistics count the moves since the last reset",
  "For MetropolisSampler n_accepted <= n_steps always, both are zero after reset, and n_steps is the total number of proposed moves over all chains and ranks; the acceptance lies in [0,1].",
  "every sequence of sample/reset calls",
  "all histories",
  ["netket/sampler/metropolis.py: MetropolisSamplerState, _reset, _sample_next", "netket/sampler/metropolis_numpy.py: _reset, _sample_next"],
  "Counter machines for both samplers. Numpy variant never resets and over-counts on several ranks: negations; jax variant proved.")
p("C47", "Sampling a chain in pieces equals sampling it at once",
  "Drawing n then m samples from the returned state of a MetropolisSampler gives the same samples and final state as drawing n+m at once, also through the generator samples.",
  "every split and sampler kernel",
  "all lengths",
  ["netket/sampler/base.py: sample, sample_next, samples", "netket/sampler/metropolis_numpy.py: _sample_next"],
  "scan as iterate. Numpy sample_next returns its internal buffer: heap negation; jax theorem proved.")
p("C48", "Number of chains and samples is rounded up consistently",
  "n_chains is n_chains_per_rank*n_nodes >= requested, minimal such; MCState.n_samples is chain_length*n_chains >= requested with the minimal chain length, also through the per-rank setter; the numbers stay consistent under every call except assigning a sampler.",
  "all requested numbers and rank counts",
  "all integers",
  ["netket/sampler/base.py: Sampler.__pre_init__", "netket/vqs/mc_state.py: n_samples, n_samples_per_rank, chain_length, sampler"],
  "Arithmetic model with setters as operations. chain_length/n_samples_per_rank accessors and the sampler setter break it: negations for n_nodes>1; partial for n_samples.")
p("C49", "Exact sampler draws from |psi|^machine_pow",
  "After reset the exact sampler's distribution is |psi|^pow normalised over the enumerated states and sample returns the corresponding states; successive calls of sample_next keep the distribution and never draw from a key twice.",
  "every machine and power",
  "distribution over all machines",
  ["netket/sampler/exact.py: ExactSampler", "netket/sampler/base.py: sample_next"],
  "pdf model over reals. sample_next(state=None) uses an un-reset state: negation; pdf theorem proved.")
p("C50", "Inverse-CDF choice selects within range with the right probabilities",
  "batch_choice returns an index of the array, and the set of uniforms selecting index k is an interval of length p_k (relative to the total).",
  "every probability vector and uniform draw",
  "continuous",
  ["netket/sampler/autoreg.py: batch_choice"],
  "cumsum model; interval characterisation.")
p("C51", "Autoregressive states are normalised and directly sampled",
  "For every autoregressive network built from masked layers the sum over all configurations of |psi|^2 is 1 and the sampler's joint probability of a configuration is |psi|^2.",
  "all local dimensions, sizes and conditional functions",
  "exponential sums",
  ["netket/models/autoreg.py: ARNN", "netket/sampler/autoreg.py: ARDirectSampler"],
  "Conditionals as arbitrary functions of earlier sites, normalised by l2; induction on sites over the reals. machine_pow ignored by the sampler: negation.")
p("C52", "Masked layers are autoregressive",
  "Output site t of exclusive masked dense/conv layers depends only on inputs at sites < t, of non-exclusive ones only on sites <= t, and stacks keep the property.",
  "all shapes, kernels, dilations and inputs",
  "all shapes",
  ["netket/nn/masked_linear.py: MaskedDense1D, MaskedConv1D, MaskedConv2D"],
  "Index-level model of masks and padded causal convolution; dependency theorem.")
p("C53", "Hamiltonian rule reports the exact proposal ratio",
  "The Hamiltonian rule proposes each of the n(x) connected elements returned by the operator with probability 1/n(x) and reports log(n(x)/n(x')), making the move reversible when every pair of configurations is connected equally often in both directions.",
  "every operator with this symmetry of multiplicities",
  "all operators",
  ["netket/sampler/rules/hamiltonian.py"],
  "Instance of C44 with q(x,y) = 1/n(x).")
p("C54", "Statistics do not depend on how samples are split over ranks",
  "For equally sized shards, mean, variance and sum across ranks equal those of the concatenated data, and so do the Monte Carlo statistics.",
  "every data set and number of ranks",
  "all shardings",
  ["netket/stats/mpi_stats.py: mean, sum, var, subtract_mean", "netket/utils/mpi/primitives.py"],
  "Rank list model over a field.")
p("C55", "to_array is independent of the number of ranks",
  "The normalised state vector returned by to_array is the same for every number of MPI ranks and has unit norm.",
  "every n_states and number of ranks",
  "all rank counts",
  ["netket/nn/utils.py: to_array"],
  "Padding/chunk model. False when padding exceeds one chunk: negation (5 states, 4 ranks); partial otherwise.")
p("C56", "Cached samples always belong to the current parameters",
  "MCState.samples returns samples drawn with the current parameters and sampler, after any sequence of setter, reset and sample calls; repeated access without changes returns the same samples; also for mixed states.",
  "every sequence of API calls",
  "all call histories",
  ["netket/vqs/mc_state.py: samples, reset, parameters", "netket/vqs/base.py: parameters, model_state, variables"],
  "State machine with provenance tags; invariant by induction; violations as negations.")
p("C57", "Mixed state and its diagonal share parameters",
  "After any sequence of assignments to parameters, model_state or variables of an MCMixedState, its diagonal state holds the same values.",
  "every sequence of assignments",
  "all histories",
  ["netket/vqs/mc_mixed_state.py: MCMixedState"],
  "State machine; invariant by induction.")
p("C58", "Serialising and restoring an MCState loses nothing",
  "Restoring a serialised state into a compatible state reproduces variables, sampler state, n_samples and n_discard, and leaves the original object unchanged.",
  "every state",
  "all states",
  ["netket/vqs/mc_state.py: serialize_MCState, deserialize_MCState"],
  "Record round trip with the setters' side effects.")
p("C59", "expect_and_grad computes the covariance gradient",
  "For hermitian operators the gradient is the covariance of local energies with conjugated log-derivatives (real part for real parameters), independent of the sharding, invariant under adding a constant to the operator, and for log-amplitudes holomorphic in complex parameters it is the conjugate-coordinate gradient of the energy.",
  "all samples, operators, rank counts",
  "all inputs",
  ["netket/vqs/mc_state.py: grad_expect_hermitian, grad_expect_operator_Lrho2"],
  "Finite-sum model over ℂ. The Lρ² gradient multiplies an already averaged term by the number of ranks: negation; hermitian gradient proved.")
p("C60", "sample(n_discard) honours its argument",
  "MCState.sample(chain_length, n_discard) discards n_discard samples per chain and returns chain_length samples whatever the stored defaults.",
  "all arguments and defaults",
  "all combinations",
  ["netket/vqs/mc_state.py: sample"],
  "Argument-resolution model. Ignored when the stored default is 0 or argument is falsy: negation; partial.")
p("C61", "Symmetrised layers are equivariant and RBMSymm is invariant",
  "For every permutation group, DenseSymm outputs are permuted (by group multiplication) when the input is permuted, and RBMSymm returns the same amplitude for all symmetry-related configurations.",
  "every group, kernel, bias and input",
  "all groups",
  ["netket/nn/symmetric_linear.py: DenseSymmMatrix, _symmetrizer_col", "netket/models/rbm.py: RBMSymm"],
  "Full-kernel gather indices modelled; sums over Fin n re-indexed by permutations.")
p("C62", "Group-convolution layers are equivariant and GCNN amplitudes are invariant",
  "DenseEquivariant in modes matrix and irreps computes the documented convolution and commutes with the group action, so that a GCNN's amplitude transforms with its characters, invariant for the default ones.",
  "every group and kernel",
  "all groups",
  ["netket/nn/symmetric_linear.py: DenseEquivariantMatrix, DenseEquivariantIrrep", "netket/models/equivariant.py"],
  "product_table kernel over abstract finite group. Parity variant's character array has a non-broadcastable shape: negation.")
p("C63", "Neural density matrices are hermitian and positive",
  "For real parameters the NDM ansatz satisfies rho(r,c) = conj(rho(c,r)) and is positive semidefinite on every finite set of configurations.",
  "all parameters and configurations",
  "continuous parameters",
  ["netket/models/ndm.py: NDM, PureRBM, MixedRBM"],
  "log rho over ℂ with log_cosh replaced by its exponential cosh product; Gram decomposition.")
p("C64", "Periodic MPS amplitude is the trace of the matrix product and translation invariant",
  "MPSPeriodic with complex tensors returns log Tr prod A[s_i]; with a repeated unit cell of symperiod tensors the amplitude is invariant under shifts by symperiod; setup accepts exactly the periods dividing the number of sites.",
  "all bond dimensions, sizes and tensors",
  "all sizes",
  ["netket/models/mps.py: MPSPeriodic"],
  "Matrix fold; cyclicity of the trace.")
p("C65", "The quantum geometric tensor is hermitian positive semidefinite, however it is represented",
  "On-the-fly, dense-Jacobian and tree-Jacobian representations of the QGT define the same linear map in their modes, which is symmetric and positive semidefinite plus diag_shift times identity, hermitian for holomorphic ansätze; to_dense of the Jacobian version is its matrix; rescaling and solving are consistent.",
  "all Jacobians, sample sets, vectors",
  "continuous inputs",
  ["netket/optimizer/qgt/qgt_onthefly_logic.py", "netket/optimizer/qgt/qgt_jacobian_dense_logic.py", "netket/optimizer/qgt/qgt_jacobian_dense.py"],
  "Matrices over ℂ; centred covariance identities.")
p("C66", "Flattening parameter trees is lossless",
  "tree_ravel followed by its unravel function is the identity, likewise tree_to_real; flattened length is tree_size.",
  "every parameter tree",
  "all trees",
  ["netket/jax/utils.py: tree_ravel, tree_to_real, tree_size"],
  "Inductive tree with leaf lists; round trip by induction.")
p("C67", "Random keys handed out are never reused",
  "Keys obtained from a PRNGSeq by any mixture of next and take are pairwise distinct and different from the initial key; those obtained by take only are not ancestors of each other.",
  "every sequence of calls",
  "all call sequences",
  ["netket/jax/utils.py: PRNGSeq"],
  "Keys as paths in the split tree. next() hands out the key it later splits: negation; partial for take-only use.")
p("C68", "R->C vector-Jacobian products are complex-linear",
  "nkjax.vjp of a real-parameter complex-output function returns ybar^T J (optionally conjugated) for every complex cotangent and is complex-linear; likewise for real to real and holomorphic functions; value_and_grad without auxiliary output returns value and complex gradient.",
  "all Jacobians and cotangents",
  "continuous",
  ["netket/jax/_vjp.py: vjp_rc", "netket/jax/_grad.py: value_and_grad"],
  "Split into four real vjps as in the code; has_aux unpacking defect of grad as negation.")
p("C69", "Equal hashable arrays hash equally",
  "Whenever two HashableArray compare equal, their hashes are equal.",
  "all arrays",
  "all dtypes and shapes",
  ["netket/utils/array.py: HashableArray", "netket/jax/utils.py: HashablePartial"],
  "Typed array model with byte encoding. False across dtypes and broadcasting shapes: negation; partial for same dtype and shape.")
p("C70", "Cached properties of dataclasses are never stale",
  "After any sequence of reads and replace calls, a cached property returns what recomputation would return; to/from_state_dict round-trips and rejects unknown or missing fields.",
  "all sequences",
  "all histories",
  ["netket/utils/struct/dataclass.py"],
  "Object = fields + cache slots; state machine.")
p("C71", "Exact steady state with sparse matrices uses L†L",
  "steady_state(method='ed', sparse=True) diagonalises L†L: the eigenvector of the smallest eigenvalue is stationary and what is returned is stationary and has trace one (if its trace does not vanish).",
  "all lindbladians",
  "all matrices",
  ["netket/exact.py: steady_state"],
  "Dense branch multiplies elementwise: negation; sparse branch proved equal to L†L.")
p("C72", "Connected-element kernel stays inside its buffers",
  "Computing the connected elements of a LocalOperator for any batch of configurations never reads or writes outside the arrays allocated for the result.",
  "all operators that can be built, all batches",
  "numba removes bounds checks: an out-of-bounds access shows no error in a test, only corrupted memory for particular operators and last rows",
  ["netket/operator/_local_operator.py: LocalOperator._get_conn_flattened_kernel"],
  "Kernel buffers carry an out-of-bounds flag. False for operators without diagonal and a last row without connections: negation; invariant otherwise.")
p("C73", "Matrices of the wrong size are rejected",
  "Adding a local matrix whose dimension is not the product of the local dimensions of the sites it acts on raises an error.",
  "all operators, matrices and site lists",
  "depends on which terms were added before",
  ["netket/operator/_local_operator.py: LocalOperator._add_operator"],
  "False when a term on the same sites already exists: negation; proved for a new support.")
p("C74", "In-place squaring equals the square",
  "After B = A; A @= B (the same object) the operator represents the matrix square of the original A.",
  "all operators",
  "needs all combinations of constants and terms; aliasing of both operands",
  ["netket/operator/_local_operator.py: LocalOperator._concrete_imatmul_"],
  "False with a non-zero constant: negation; proved without constant.")
p("C75", "Malformed Pauli strings are rejected",
  "PauliStrings raises for strings of unequal lengths, for a number of weights different from the number of strings, for empty lists, and for any character other than X, Y, Z, I before an optional final newline; otherwise, without newline, it accepts.",
  "all lists of strings and weights",
  "all strings, including control characters",
  ["netket/operator/_pauli_strings.py: PauliStrings.__init__"],
  "Validation regex modelled on characters. The `$` of the regex admits a trailing newline: negation; everything else proved.")
p("C76", "Sums and differences of special Hamiltonians denote sums and differences",
  "For Hamiltonians H1, H2 of the same class and any local operator B, H1+H2, H1-H2, H1+B, B+H1, H1-B and B-H1 return operators whose matrices are the sums and differences.",
  "all graphs, parameters and local operators",
  "pairs of graphs, graphs with isolated nodes",
  ["netket/operator/_hamiltonian.py: SpecialHamiltonian.__add__, __sub__", "netket/operator/_hamiltonian.py: Ising.copy"],
  "False for different graphs (edges of the second are ignored), graphs whose last nodes are isolated (copy rebuilds the graph from the edges) and B-H (no __neg__): negations; proved for equal edges covering the nodes and for sums with local operators.")
p("C77", "A LocalOperator of several matrices has the common dtype",
  "LocalOperator(hilbert, operators, acting_on) without dtype accepts any list of real and complex matrices and has a dtype to which all of them promote.",
  "all lists of dtypes",
  "order of the list matters",
  ["netket/operator/_local_operator.py: LocalOperator.__init__"],
  "False: the result of promote_types in the loop is discarded, [real, complex] raises: negation; proved when the first matrix has the largest kind.")
p("C78", "LocalLiouvillian: padded batches keep every connected element",
  "get_conn_flattened(x, sections, pad=True) of a LocalLiouvillian returns rows of equal width; row i consists of all connected elements of pair i followed by entries with matrix element zero, so that reshaping to (batch, width) loses nothing, and the added configurations belong to the space.",
  "all spaces, Hamiltonians, jump operators and batches",
  "the width depends on the batch: tests use batches in random order where the first row is rarely the longest",
  ["netket/operator/_local_liouvillian.py:181-364"],
  "row starts, width computation and clearing modelled; theorem under 'first row not longest', refutation otherwise")
p("C79", "LocalLiouvillian.to_linear_operator applies the Lindblad generator",
  "to_linear_operator() applied to the row-major vectorisation (complex) of rho gives the vectorisation of -i(H rho - rho H^dagger) + sum(L rho L^dagger - 1/2 {L^dagger L, rho}); with append_trace=True the vector has one more component, the trace of rho.",
  "all spaces with an indexing (C01), operators and vectors",
  "tests compare with the dense matrix for one model and complex vectors",
  ["netket/operator/_local_liouvillian.py:366-443"],
  "matrices from to_sparse (C19), matvec as in the code; dtype of the accumulator")
p("C80", "MCMixedState accepts its documented arguments and samples its diagonal with machine_pow 1",
  "Constructing an MCMixedState with any of its documented arguments (n_samples, n_samples_per_rank, apply_fun, the *_diag ones) succeeds, and the diagonal state's sampler always has machine_pow 1, also after assigning sampler_diag.",
  "all samplers, variables and argument combinations",
  "tests construct mixed states with a model and n_samples only and never assign sampler_diag",
  ["netket/vqs/mc_mixed_state.py: MCMixedState.__init__, sampler_diag"],
  "False: n_samples_per_rank and apply_fun raise, the sampler_diag setter does not set machine_pow: negations; proved for model and n_samples.")
p("C81", "statistics gives an error estimate whenever there are enough samples",
  "For at least batch_size samples whose variance is not zero, netket.stats.statistics returns a finite error_of_mean: the estimate from the chain means if there are at least batch_size chains, the block estimate otherwise. It does not depend on how the chains are split over ranks. With more than one chain R_hat is finite. With vanishing variance error, correlation time and R_hat are NaN.",
  "for all numbers of chains, samples and ranks, all data",
  "The tests use random data with positive variance and a single process.",
  ["netket/stats/mc_stats.py: _statistics, _block_variance, _batch_variance"],
  "Model/Stats.lean. The finite cases are proved under positive variance; zero variance gives NaN (refuted).")
p("C82", "Equal hashable partials behave equally",
  "If two HashablePartial compare equal, their hashes are equal; if their functions have the same closure and defaults, calling them with the same further arguments gives the same result.",
  "for all functions, closures, arguments and keyword orders",
  "The tests only build partials from module-level functions.",
  ["netket/jax/utils.py: HashablePartial"],
  "Model/HashArray.lean. Equality compares code objects only: hash consistency proved, behaviour refuted for closures.")
p("C83", "Cached properties follow jax tree operations",
  "After jax.tree_map over a NetKet dataclass, a cached property returns what recomputation from the new fields returns.",
  "for all classes, objects, functions and previously read properties",
  "The tests check caches only through replace.",
  ["netket/utils/struct/dataclass.py: process_cached_properties, iterate_clz, clz_from_iterable"],
  "Model/Dataclass.lean. Caches are meta fields and survive unflattening: refuted once a property has been read; proved otherwise.")
p("C84", "The FFT implementations of the symmetric layers agree with the matrix implementations",
  "On a periodic lattice, DenseSymm and DenseEquivariant in mode \"fft\" return, for every kernel, bias, feature map and symmetry, exactly what mode \"matrix\" returns with the space group of that lattice and its product table; the FFT group convolution is therefore equivariant.",
  "every periodic lattice (any number of axes, any extents, any number of sites per cell), every point group, kernel, bias and input",
  "no finite set of lattices and kernels covers the index gymnastics of the reshapes",
  ["netket/nn/symmetric_linear.py: DenseSymmFFT, DenseEquivariantFFT", "netket/graph/space_group.py: space_group"],
  "DFT over complex numbers with Mathlib roots of unity; the convolution theorem, then the layers entry by entry against the matrix layers of C61/C62; the hypotheses on the order of rows are discharged from C85")
p("C85", "Translation and space groups list translations in row-major order of the cells",
  "For a lattice periodic along every axis, translation_group() has one element per cell t, in row-major order of the cells, and element t moves site (c, s) by the vector of t, preserving the offset s; space_group lists for each translation all point symmetries, and its product table is invariant under translating both indices.",
  "every shape, number of sites per cell and point group",
  "all shapes",
  ["netket/graph/space_group.py: _translations_along_axis, _full_translation_group, space_group", "netket/utils/group/_semigroup.py: __matmul__"],
  "induction over the axes for the reduce; coordinates by division and remainder")
p("C86", "When FFT layers can be set up",
  "DenseSymm and GCNN in mode 'fft' can be set up exactly if the number of cells divides the order of the space group, as for every periodic lattice; an open axis contributes only the identity to the translations.",
  "every lattice",
  "the failure depends on extents and boundary conditions",
  ["netket/nn/symmetric_linear.py: DenseSymmFFT.setup, DenseEquivariantFFT.setup", "netket/models/equivariant.py: GCNN", "netket/graph/common_lattices.py: Chain"],
  "refuted: the number of symmetries per cell is an integer division by the number of cells, but open axes contribute one translation only")
p("C87", "RBM, RBMModPhase and Jastrow return the documented amplitude",
  "exp of RBM(x) is exp(a·x) times the product over hidden units of cosh(b_j + W_j·x) (factors dropped with the biases); RBMModPhase has the modulus of its real machine and the phase of the other; Jastrow is the quadratic form with the symmetric part of the kernel.",
  "all sizes, parameters and configurations",
  "continuous parameters, all sizes",
  ["netket/models/rbm.py: RBM, RBMModPhase, RBMMultiVal", "netket/models/jastrow.py: Jastrow", "netket/nn/activation.py: log_cosh"],
  "exponentials of the log-amplitudes in ℂ, so that branch cuts of the logarithm do not matter; one-hot encoding over integers, refuted for half-integer/negative quantum numbers")
p("C88", "SR passes its arguments to tensor and solver",
  "nk.optimizer.SR(...) in the new interface, and in the old one without options of the solver, yields a preconditioner with the tensor type, solver, diagonal shift and solver_restart it was given; options accepted by the tensors reach them; unknown methods and too many arguments are errors; calls without the keyword machine are dispatched by the type of the first argument.",
  "all argument lists and keyword arguments",
  "combinations of keywords",
  ["netket/optimizer/sr/api.py: build_SR, _SR", "netket/optimizer/qgt: QGTOnTheFly, QGTJacobianDense, QGTJacobianPyTree", "netket/utils/deprecation.py: wraps_legacy"],
  "keywords as association lists, Python's call protocol explicit; refuted for options of the solver (every tensor refuses them), matrix, jacobian, centered, machine=")
p("C89", "LinearPreconditioner restarts, solve arguments and LU behave as documented",
  "A preconditioner with solver_restart=False uses the last solution as starting point of the next solve and with True does not; LinearOperator.solve passes additional arguments on to the solver; LU(A, b, trans) solves the system selected by trans.",
  "all solvers, sequences of calls, matrices",
  "arbitrary solvers and histories",
  ["netket/optimizer/preconditioner.py: LinearPreconditioner", "netket/optimizer/linear_operator.py: LinearOperator.solve", "netket/optimizer/solver/solvers.py: LU"],
  "solver as an arbitrary function; refuted (flag has the opposite meaning, arguments refused or dropped, trans ignored), with theorems on what happens instead")
p("C90", "QGTAuto calls the chosen constructor with the given options",
  "The first call of QGTAuto(solver, **kw0) with a state constructs the representation chosen by the documented heuristic with the keywords kw0 and kw, and repeated calls with the same keywords do the same.",
  "all states, keywords; first and identical calls",
  "history dependence",
  ["netket/optimizer/qgt/default.py: QGTAuto, default_qgt_matrix"],
  "state machine with the cache; refuted: keywords of the first call with a state stay, an error poisons the cache, dense solver with mixed parameters")
p("C91", "Spin operators represent the spin algebra",
  "For every local dimension, site and Hilbert space, sigmax, sigmay, sigmaz, sigmam, sigmap are LocalOperators acting on the given site whose matrices are Hermitian (x, y, z), adjoint to each other (±), satisfy the commutators and Casimir of angular momentum (σ = 2 S), and reduce to the Pauli matrices for two local states.",
  "all s = k/2, sites, sizes",
  "arbitrary spin",
  ["netket/operator/spin.py: sigmax, sigmay, sigmaz, sigmam, sigmap"],
  "s ↦ dimension k+1; matrices entrywise over ℚ[√] in ℝ/ℂ; refuted: σ± is half of the documented combination, σz has the sign of minus the quantum number, total_sz")
p("C92", "Boson operators represent the oscillator algebra",
  "For every cutoff and site, create and destroy are adjoint, number = create·destroy and multiplies a configuration by its occupation, [destroy, create] is 1 up to the cutoff, and proj(n), 0 <= n < N, are orthogonal projectors onto occupation n resolving the identity; n above the cutoff or below -N is an error.",
  "all cutoffs, sites, n",
  "arbitrary cutoff",
  ["netket/operator/boson.py: destroy, create, number, proj"],
  "entrywise; refuted: negative n is accepted (python indexing)")
p("C93", "local_values are the local estimators",
  "nk.operator.local_values(op, logψ, v) returns, for every row x of v, ⟨x|O|ψ⟩/⟨x|ψ⟩ (for density matrices ⟨x|Oρ|x⟩/⟨x|ρ|x⟩), so that averages with |ψ|² are expectation values; log_vals may be given; wrong shapes are errors.",
  "all operators built by the API, functions logψ, batches (non-empty for density matrices)",
  "arbitrary operators and amplitudes",
  ["netket/operator/_local_values.py: local_values, _local_values_impl, _op_op_unpack_kernel"],
  "kernels with sections over the connected elements of C10/C18; empty batches of density matrices refuted")
p("C94", "der_local_values are the derivatives of the local values",
  "nk.operator.der_local_values(op, machine, v, center_derivative=True) returns for every row of a batch v the derivative of the local value with respect to the parameters, whatever the positive batch size; wrong shapes are errors.",
  "all operators, differentiable machines, batches, batch sizes",
  "calculus over continuous parameters",
  ["netket/operator/_der_local_values.py: der_local_values, _der_local_values_impl"],
  "HasDerivAt of the local value; loop over batches by induction; refuted for a single configuration and batch sizes below one")
p("C95", "Local cost functions are evaluated over the batch",
  "nk.operator.define_local_cost_function(f, batch_axes=...) defines a function whose local_cost_function over batched arguments returns f of every batch entry; local_value_cost over padded connected elements is the local value.",
  "all functions, axes, batches, paddings",
  "arbitrary functions",
  ["netket/operator/_local_cost_functions.py: define_local_cost_function, local_cost_function, local_value_cost"],
  "vmap as a function on lists; the documented default axes are refuted (every call is a ValueError)")
p("C96", "Replica exchange: moves and exchange probabilities",
  "In MetropolisPtSampler with an even number of replicas and a rule without correction, each pass of the loop updates every replica by a Metropolis move in detailed balance with |ψ|^(pow·β) at its β; the replicas are matched in pairs without fixed points in both orders; both members of a pair exchange or none does, iff the number drawn for the pair is below exp of the change of Σ β log p; that probability satisfies detailed balance for the product of tempered distributions.",
  "all numbers of replicas, both orders, all states, log-probabilities, draws",
  "arbitrary replica counts and weights",
  ["netket/sampler/metropolis_pt.py: MetropolisPtSampler._sample_next"],
  "index arithmetic mod n; detailed balance via C44")
p("C97", "Replica exchange: samples, statistics, construction",
  "MetropolisPtSampler.sample returns the configuration of the replica at β = 1, for rules with and without correction; acceptance counts accepted moves; beta_position and beta_diffusion are running statistics; reset returns to the initial state; n_replicas must be an even integer > 0.",
  "all states, draws, n_replicas",
  "arbitrary executions",
  ["netket/sampler/metropolis_pt.py: MetropolisPtSampler"],
  "positive parts partial; every clause has a refutation")
p("C98", "Exact propagation solves the equations of motion",
  "PyExactTimePropagation integrates, with propagation_type 'real', iψ' = Hψ: for Hermitian H the norm and every observable commuting with H are constant; with 'imaginary', from a normalised state, the norm stays one and the energy never increases, at a rate of twice its variance.",
  "all finite-dimensional Hermitian H, solutions, times",
  "continuous time and arbitrary Hamiltonians",
  ["netket/_exact_dynamics.py: _make_rhs"],
  "HasDerivAt, Grönwall")
p("C99", "Exact time evolution driver",
  "PyExactTimePropagation: estimate returns mean and variance; advance and iter move time by n·dt and yield at the requested times; step_count counts steps; reset returns to the start; run logs every step; matrix_type 'direct' works; initial states need not be normalised.",
  "all states, observables, numbers of steps, integrators",
  "arbitrary executions",
  ["netket/_exact_dynamics.py: PyExactTimePropagation"],
  "positive: estimate for normalised states, advance, iter; refuted: the rest")
p("C100", "Hilbert spaces reject invalid arguments",
  "states_to_numbers rejects configurations violating the constraint, numbers_to_states rejects negative numbers, ptrace accepts repeated sites like a set, and powers or products that cannot be expressed raise NotImplementedError.",
  "every space and argument",
  "arbitrary spaces and integers",
  ["netket/hilbert/homogeneous.py, hilbert_index.py: states_to_numbers, numbers_to_states", "netket/hilbert/fock.py, tensor_hilbert.py, homogeneous.py: ptrace, __pow__, __mul__"],
  "every clause is refuted; the actual behaviour (next allowed index; zero or wrap-around) is characterised for all inputs")
p("C101", "Doubled spaces report the shape of both halves",
  "DoubledHilbert.shape lists the local dimensions of the physical space twice.",
  "every physical space",
  "arbitrary spaces",
  ["netket/hilbert/doubled_hilbert.py: DoubledHilbert.shape"],
  "proved for tuples, refuted for ndarrays (doubled elementwise)")
p("C102", "Flips and local moves on CustomHilbert in any order and on doubled products",
  "flip_state changes the requested site to another local state also for CustomHilbert with local states in any order and for doubled product spaces, and local Metropolis moves on such spaces are reversible.",
  "every list of local states, every product",
  "arbitrary spaces",
  ["netket/hilbert/random/custom.py, random/doubled.py: flip_state", "netket/sampler/rules/local.py"],
  "refuted with concrete spaces")
p("C103", "Order of supports and products on spaces with different local dimensions",
  "Listing the sites of a local operator in another order, with the matrix permuted accordingly, gives the same operator, and A@B is the matrix product, also when the sites have different local dimensions.",
  "all spaces and operators",
  "arbitrary spaces",
  ["netket/operator/_local_operator.py: _reorder_matrix, __matmul__"],
  "refuted on dimensions 2 and 3")
p("C104", "Constructors and in-place operations on shared buffers",
  "The constructor does not change the arrays it is given, repeated A+=X adds X every time, in-place operations on a sum do not change its operands, and in-place scaling scales every term once.",
  "every sequence of operations",
  "aliasing over arbitrary histories",
  ["netket/operator/_local_operator.py: __init__, _add_operator, __iadd__, __imul__"],
  "refuted in the heap model")
p("C105", "is_hermitian after complex scaling",
  "is_hermitian is False (or the matrix hermitian) also for operators multiplied with complex scalars or having complex constants, and A@A is the square of A.",
  "every history",
  "arbitrary histories",
  ["netket/operator/_local_operator.py: is_hermitian, __mul__", "netket/operator/_abstract_operator.py: __matmul__"],
  "refuted: 1j*sigmax keeps its flag, its square has the wrong sign")
p("C106", "Wrappers of squares and concrete conjugates",
  "T, conj and collect are available for A.H@A and its transpose, (A.H@A).conjugate() is its conjugate, (A.H@A).transpose().H its adjoint's transpose, and A.T.conjugate(concrete=True) the adjoint of A.",
  "every operator",
  "arbitrary nestings",
  ["netket/operator/_lazy.py: Squared, Transpose, Adjoint"],
  "refuted")
p("C107", "max_conn_size bounds the connected elements of every operator",
  "max_conn_size is at least the number of connected elements also for operators that are only a constant and after multiplication with zero.",
  "every operator",
  "arbitrary histories",
  ["netket/operator/_local_operator.py: max_conn_size, _setup"],
  "refuted")
p("C108", "Operators leaving a constrained space",
  "to_dense of an operator that connects states of a constrained space with configurations outside of it raises or drops these elements.",
  "every operator on a constrained space",
  "arbitrary constraints",
  ["netket/operator/_abstract_operator.py: to_sparse", "netket/hilbert/hilbert_index.py: states_to_numbers"],
  "refuted")
p("C109", "BoseHubbard equals its LocalOperator conversion",
  "BoseHubbard.to_local_operator() has the matrix of the Hamiltonian.",
  "every graph and parameters",
  "arbitrary parameters",
  ["netket/operator/_hamiltonian.py: BoseHubbard"],
  "characterised; refuted for U != 0 and for J = 0 with V != 0")
p("C110", "LocalLiouvillian.get_conn on all pairs, constant jump operators",
  "get_conn of a LocalLiouvillian returns the connected elements of every pair, and jump operators that are multiples of the identity are included.",
  "every pair and operators",
  "arbitrary operators",
  ["netket/operator/_local_liouvillian.py: get_conn, get_conn_flattened"],
  "refuted")
p("C111", "GraphOperator from any documented lists",
  "GraphOperator can be built from site operators alone and from several bond operators without colours, and numpy arrays may be passed.",
  "every graph and lists",
  "arbitrary graphs",
  ["netket/operator/_graph_operator.py: GraphOperator.__init__"],
  "refuted")
p("C112", "History accepts every documented item",
  "History() is empty, a list of values gives one entry per value, lengths are checked, items with missing or unknown keys are rejected without changes, an append without iteration increments the time, values are stored as given, and rows may be lists.",
  "every item",
  "arbitrary items",
  ["netket/utils/history.py: History", "netket/utils/history.py: accum_in_tree"],
  "refuted clause by clause")
p("C113", "StateLog on new targets in every mode",
  "StateLog in mode 'append' starts a new target when there is none, and in mode 'fail' writes a new archive.",
  "every prior directory content",
  "arbitrary targets",
  ["netket/logging/state_log.py: StateLog._init_output"],
  "refuted")
p("C114", "run performs n_iter updates; min_delta is a minimal improvement",
  "run(n_iter, step) performs exactly n_iter parameter updates for every step, and EarlyStopping counts only improvements of more than min_delta.",
  "all step sizes, losses, parameters",
  "arbitrary sequences",
  ["netket/driver/abstract_variational_driver.py: iter, run", "netket/callbacks/earlystopping.py: EarlyStopping"],
  "partial: steps dividing n_iter; min_delta = 0")
p("C115", "Single sites and doubled graphs",
  "Grid of a single open site is a graph with one node, and DoubledGraph(g) consists of two disjoint copies of g with their colours.",
  "all graphs",
  "arbitrary graphs",
  ["netket/graph/common_lattices.py: Grid", "netket/graph/graph.py: DoubledGraph"],
  "two copies up to colours proved; colours and the single site refuted")
p("C116", "Identity in products, inverse of remove_duplicates",
  "The product of Identity() with any element is formed, and the inverse indices of remove_duplicates reconstruct the original list.",
  "all elements and lists",
  "arbitrary lists",
  ["netket/utils/group/_semigroup.py: product", "netket/utils/group/_group.py: remove_duplicates"],
  "reconstruction when the result is in lexicographic order")
p("C117", "MetropolisSamplerNumpy behaves as MetropolisSampler",
  "MetropolisSamplerNumpy counts accepted and proposed moves since the last reset over all ranks, uses log-values of its current rows also without explicit state, and its chains can be drawn in pieces on any number of ranks without changing samples already returned.",
  "every sequence of calls, all rank counts",
  "arbitrary executions",
  ["netket/sampler/metropolis_numpy.py: MetropolisSamplerNumpy"],
  "one rank without reset proved")
p("C118", "Entry points of samplers on all documented input",
  "Exact and autoregressive samplers can be sampled in pieces, without state, and with any machine_pow; module-level reset returns the new state; clusters given to the exchange rule are checked; an entry of probability zero is never selected; the Hamiltonian rule is reversible for every Hermitian operator.",
  "every input",
  "arbitrary input",
  ["netket/sampler/base.py: reset, sample_next", "netket/sampler/exact.py: ExactSampler", "netket/sampler/autoreg.py: ARDirectSampler", "netket/sampler/rules/exchange.py, hamiltonian.py", "netket/sampler/autoreg.py: batch_choice"],
  "refuted clause by clause")
p("C119", "Masked 1d convolutions keep the number of sites",
  "MaskedConv1D returns one output per site for every chain length and dilation.",
  "all lengths, kernel sizes, dilations",
  "arbitrary sizes",
  ["netket/nn/masked_linear.py: MaskedConv1D"],
  "proved for dilation <= length, refuted beyond")
p("C120", "MCState: numbers of samples read back as set",
  "chain_length and n_samples_per_rank of an MCState read back what was set (rounded up to full chains), assigning a sampler keeps the numbers consistent, and cached samples have the current chain length.",
  "all numbers and rank counts",
  "arbitrary sequences of calls",
  ["netket/vqs/mc_state.py: MCState"],
  "one rank proved; getter characterised")
p("C121", "Gradients for real parameters and of <L†L>",
  "For real parameters expect_and_grad returns the derivative of the energy, and the gradient of a squared Lindbladian does not depend on the sharding.",
  "all samples, parameters, rank counts",
  "calculus over continuous parameters",
  ["netket/vqs/mc_state.py: grad_expect_hermitian, grad_expect_operator_Lrho2"],
  "half of the derivative; one rank")
p("C122", "Ansätze evaluate on all documented input",
  "GCNN with parity can be evaluated, MPSPeriodic with real tensors has a logarithm of its amplitude, and RBMMultiVal distinguishes the local states of the Hilbert spaces it is documented for.",
  "all parameters, groups, configurations",
  "arbitrary parameters",
  ["netket/models/equivariant.py: GCNN_Parity_*", "netket/models/mps.py: MPSPeriodic", "netket/models/rbm.py: RBMMultiVal"],
  "positive parts for one symmetry, positive traces, non-negative quantum numbers")
p("C123", "QGT: dense matrices, rescaling, mixed leaves, warm starts for every ansatz",
  "to_dense on the fly is the matrix of the product, rescale_shift gives finite gradients, the dense representation applies to parameters of mixed types, and solve accepts a starting vector, in every mode.",
  "all ansätze, Jacobians, parameters",
  "arbitrary Jacobians",
  ["netket/optimizer/qgt/qgt_onthefly.py: to_dense", "netket/optimizer/qgt/qgt_jacobian_dense.py"],
  "positive parts: holomorphic or real; no vanishing column; homogeneous leaves; mode holomorphic")
p("C124", "Keys from next, vjp of complex-to-real functions, auxiliary output",
  "No key handed out by PRNGSeq.next is an ancestor of a later one, vjp is complex-linear in the cotangent also for complex parameters and real output, and value_and_grad accepts has_aux.",
  "all sequences, Jacobians, cotangents",
  "arbitrary sequences",
  ["netket/jax/utils.py: PRNGSeq", "netket/jax/_vjp.py, _grad.py"],
  "refuted")
p("C125", "Exact steady state with sparse=False and iterative solvers",
  "steady_state returns a stationary state of trace one also with sparse=False and with method='iterative'.",
  "all lindbladians",
  "arbitrary operators",
  ["netket/exact.py: steady_state"],
  "iterative: whenever the solver solves the system; dense refuted")
p("C126", "Corner cases of strings, vectors, statistics and partials",
  "A Pauli string ending in a newline is rejected; to_linear_operator accepts real vectors; the error of the mean of constant data is zero; equal HashablePartials behave equally also for closures.",
  "all inputs",
  "arbitrary inputs",
  ["netket/operator/_pauli_strings.py", "netket/operator/_local_liouvillian.py: to_linear_operator", "netket/stats/mc_stats.py: statistics", "netket/jax/utils.py: HashablePartial"],
  "refuted clause by clause")
p("C127", "FFT layers can be built for open lattices",
  "DenseSymm and GCNN in mode 'auto' or 'fft' can be set up for every lattice with its default point group, also with open boundaries.",
  "every lattice",
  "arbitrary lattices",
  ["netket/nn/symmetric_linear.py: DenseSymmFFT", "netket/models/equivariant.py: GCNN"],
  "refuted for every open chain of three or more sites")
p("C128", "SR and QGTAuto accept their documented options in every call",
  "SR accepts the documented options of solver, tensor and legacy machines; QGTAuto passes the keywords of every call, recovers from refused calls, and chooses a representation that can handle the parameters.",
  "all argument lists and sequences of calls",
  "arbitrary sequences",
  ["netket/optimizer/sr/api.py: build_SR", "netket/optimizer/qgt/default.py: QGTAuto"],
  "refuted clause by clause")
p("C129", "Spin operators agree with the quantum numbers of configurations",
  "σ± = σx ± iσy as documented, σz multiplies a configuration by its quantum number, σ⁺ raises it, and with total_sz = m the sum of all σz/2 is m.",
  "all spins, configurations",
  "arbitrary spin",
  ["netket/operator/spin.py", "netket/hilbert/spin.py: Spin"],
  "what holds instead: half the combination, the opposite sign")
p("C130", "Documented calls of proj, local values and cost functions",
  "proj(n) rejects negative n; local_values accepts empty batches also for density matrices; der_local_values accepts a single configuration and every batch size or rejects it; cost functions have the documented default axes.",
  "all arguments",
  "arbitrary arguments",
  ["netket/operator/boson.py: proj", "netket/operator/_local_values.py", "netket/operator/_der_local_values.py", "netket/operator/_local_cost_functions.py"],
  "refuted clause by clause")
p("C131", "Planar point groups consist of the isometries they name",
  "planar.rotation(angle) turns counterclockwise by angle degrees and reflection(angle) reflects in the line at that angle; C(n), n > 0, has n elements, the rotations of the plane of order dividing n, element i turning by 360 i/n degrees; D(n, axis), rectangle() and square() have 2n elements, these and the reflections in the axes at multiples of 180/n degrees; the product table exists; a glide is the reflection followed by the translation, and applied twice translates by twice the vector.",
  "every order n > 0, angle, translation, origin",
  "infinitely many orders and angles, real matrices; equality as sets of maps",
  ["netket/utils/group/planar.py: rotation, C, reflection, reflection_group, glide, glide_group, D, rectangle, square"],
  "planar constructors over the reals")
p("C132", "Axial point groups consist of the isometries they name",
  "axial.rotation(angle, axis) is the right-handed rotation, reflection(axis) the mirror image in the normal plane, rotoreflection their product, inversion() is -1; for a non-zero axis C(n, axis) are the n proper rotations about the axis of order dividing n; Ch, Cv, D, Dh, S, Dd with perpendicular axes are C(n) extended by the horizontal mirror, the vertical mirror, the perpendicular half turn, both, the rotoreflection, ..., with 2n, 2n, 2n, 4n, n (n even; S(n) = Ch(n) for odd n), 4n elements, each once, identity first; the product table exists. Zero axes raise ValueError, axes which are not perpendicular AssertionError.",
  "every order n > 0, non-zero axes of any length",
  "infinitely many orders and axes",
  ["netket/utils/group/axial.py: rotation, C, inversion, reflection, Ch, Cv, rotoreflection, S, D, Dh, Dd"],
  "axial constructors over the reals, completeness by a frame adapted to the axis")
p("C133", "Glide and screw groups",
  "axial.glide is the reflection followed by a translation in the mirror plane, with the mirror through origin, and its square is the translation by twice the vector; screw turns about the axis through origin and moves along it; screw_group for the fraction p/q of a turn in lowest terms stops after q elements, element i being the i-th power of the screw, the q-th power a pure translation by q trans; given a unit cell containing this translation the product table exists.",
  "every axis, translation, origin, p/q with q < 10^8",
  "infinitely many pitches and axes; a loop whose end depends on a test of integrality",
  ["netket/utils/group/axial.py: screw, screw_group, glide, glide_group"],
  "loop with fuel, powers of the screw")
p("C134", "Cubic point groups and the diamond space group",
  "T() are the 12 rotations of the regular tetrahedron, Td() its 24 symmetries, Th() the rotations and their negatives, O() the 24 rotations of the cube, Oh() its 48 symmetries, each once with the identity first and a product table. Fd3m() has 48 elements and the fcc unit cell; up to translations of the lattice its elements are exactly the isometries of space which map the diamond structure into itself, and the product table exists.",
  "all orthogonal maps, all isometries of space",
  "membership of all isometries of a continuum",
  ["netket/utils/group/cubic.py: T, Td, Th, O, Oh, Fd3m"],
  "images of vertices determine the map; nearest neighbours in diamond")
p("C135", "Operations on point groups",
  "rotation_group() keeps the orientation-preserving elements in order; change_origin(o) gives, element by element, the same linear part about o; A @ B lists the compositions with A's elements running slowest, takes the unit cell which is given and raises ValueError for different ones; the trivial group has one element; cuboid() are the 8 changes of sign of coordinates and cuboid_rotations() the 4 proper ones.",
  "all groups of constructed elements, origins",
  "arbitrary groups and origins",
  ["netket/utils/group/_point_group.py: PointGroup.rotation_group, PointGroup.change_origin, product, trivial_point_group", "netket/utils/group/axial.py: cuboid, cuboid_rotations"],
  "list models")
p("C136", "Bins for floating-point numbers",
  "comparable(x) is a nearest integer to bin_density x + offset; numbers within (1/2 - offset)/bin_density of a multiple m/bin_density are put in bin m, so that fractions with denominators dividing 3326400 computed with errors below 4.6e-8 have equal bins precisely if they are equal; bins are monotone and numbers in one bin differ by at most its width; comparable_periodic is invariant under integer shifts, lies in [0, bin_density), and two numbers agree precisely if some integer shift puts them in the same bin; is_approx_int holds precisely within atol of an integer.",
  "all numbers, offsets and (even) bin densities",
  "real numbers, arbitrary errors",
  ["netket/utils/float.py: comparable, comparable_periodic, is_approx_int"],
  "rounding to even in an ordered field")
p("C137", "prune_zeros sets small parts to zero",
  "prune_zeros(x) returns x with the entries within 1e-8 of zero replaced by zero and all others unchanged; for complex arrays this applies to the parts, and a real array is returned precisely if all imaginary parts are within 1e-8 of zero.",
  "all arrays",
  "arbitrary arrays",
  ["netket/utils/float.py: prune_zeros, _prune_zeros"],
  "lists of numbers")
p("C138", "Point-group constructors reject other arguments, and point groups can be compared",
  "C(n) rejects n < 1; D, Cv, Dd, glide reject axes at 45 degrees whatever their lengths; a point group equals itself, and only groups with the same number of elements.",
  "all arguments",
  "arbitrary arguments",
  ["netket/utils/group/planar.py: C", "netket/utils/group/axial.py: C, D", "netket/utils/group/_point_group.py: PointGroup.__eq__"],
  "refuted clause by clause; what happens instead")
p("C139", "prune_zeros leaves its argument alone and uses its tolerance",
  "prune_zeros(x, atol) does not change x, and prunes the entries within atol of zero.",
  "all arrays and tolerances",
  "aliasing through views",
  ["netket/utils/float.py: prune_zeros"],
  "refuted; what the argument becomes")
p("C140", "The custom rule samples the given stochastic operators",
  "CustomRuleNumpy(operator, weights) accepts precisely operators whose matrices are symmetric and stochastic, with one non-negative weight each; from x it proposes y with probability sum_k (w_k / sum w) <x|O_k|y>, every chain on its own with its own random numbers; proposals are configurations of the space, symmetric in x and y, with correction zero; Metropolis steps with them satisfy detailed balance for |psi|^machine_pow. Assumes an operator without constant and no non-zero element below the cutoff.",
  "every such operator, weights, batch, random numbers in [0,1)",
  "probabilities over real random numbers, arbitrary operators and batch sizes",
  ["netket/sampler/rules/custom_numpy.py: CustomRuleNumpy.transition, _check_operators, _pick_random_and_init, _choose", "netket/operator/_local_operator.py: LocalOperator.get_conn_filtered"],
  "buffers and sections as lists; Lebesgue measure of the random numbers leading to y")
p("C141", "The custom rule stays inside the row it has drawn",
  "Whatever operator passes the construction of CustomRuleNumpy, the proposal for a chain is one of the configurations connected to it by the drawn operator.",
  "all accepted operators",
  "index past the end of numpy arrays under numba",
  ["netket/sampler/rules/custom_numpy.py: _choose, CustomRuleNumpy.__post_init__"],
  "refuted for operators with a constant and for small elements; what holds for rows adding up to one")
p("C142", "nk.jax.expect is the sample mean with the score-function gradient",
  "The value is the mean over the samples of all ranks and does not depend on n_chains, which must divide the number of samples (TypeError otherwise); the gradients of the ranks add up to the mean over all samples of (L - mean L) d log p + d L, times the cotangent; for n independent samples of exp(log_pdf)/Z the mean of the gradient is the derivative of the exact expectation value minus 1/n of its score part, and exactly the derivative if the density does not depend on the parameter. The kernel for squared and non-Hermitian operators raises RuntimeError unless NETKET_EXPERIMENTAL is set, and returns this gradient on one rank.",
  "all samples, ranks with equally many samples, differentiable log_pdf and functions, finite sample spaces for the mean",
  "mean over all possible samples; derivatives; any number of ranks",
  ["netket/jax/_expect.py: _expect, _expect_fwd, _expect_bwd", "netket/vqs/mc_state.py: grad_expect_operator_kernel"],
  "real parameters, derivative in one parameter; sums over all sample tuples")
p("C143", "The gradient of expect is unbiased and that of the kernel independent of the ranks",
  "The mean of the gradient of nk.jax.expect over independent samples is the derivative of the expectation value; grad_expect_operator_kernel returns the gradient for the samples of all ranks.",
  "all sample numbers and ranks",
  "mean over all samples; several ranks",
  ["netket/jax/_expect.py: _expect_fwd, _expect_bwd", "netket/vqs/mc_state.py: grad_expect_operator_kernel"],
  "refuted by one sample and by two ranks; the factors (n-1)/n and 1/R")
p("C144", "Optimisation steps of VMC and SteadyState",
  "VMC(...) raises TypeError precisely for a Hamiltonian on another space, SteadyState(...) precisely for an operator that is no super-operator, both ValueError precisely for sr together with preconditioner or sr_restart without one; construction changes at most solver_restart of the preconditioner passed. A step without mutable model state draws samples once, with the present parameters, uses them for statistics, gradient and tensor (observables estimated next use the same samples), and then assigns the parameters computed by the optimiser and discards the samples; advance(a+b) is advance(a) then advance(b). Leaves with real parameters receive the real part of the direction. For a Hermitian Hamiltonian and exact expectation values the energy decreases along the update at the rate of its squared norm (without preconditioner), or of the quadratic form of the shifted tensor (with stochastic reconfiguration).",
  "all states, samplers, operators, preconditioners, optimisers, numbers of steps; all differentiable ansätze for the descent",
  "any estimator, solver and optimiser; derivatives of the exact energy",
  ["netket/driver/vmc.py: VMC.__init__, VMC._forward_and_backward", "netket/driver/steady_state.py: SteadyState.__init__, SteadyState._forward_and_backward", "netket/driver/abstract_variational_driver.py: iter, advance, update_parameters"],
  "state machine over the MCState model with arbitrary parts; derivative of the energy from the covariance formula")
p("C145", "Drivers do not interfere, check their operator, describe themselves and use one set of samples",
  "Constructing a driver does not change another; SteadyState rejects operators on another space; info() describes the driver; gradient and tensor of a step are computed from the same samples.",
  "all drivers",
  "aliasing of preconditioners; samplers with state",
  ["netket/driver/vmc.py: VMC.__init__, VMC.info", "netket/driver/steady_state.py: SteadyState.__init__, SteadyState.info", "netket/vqs/base.py: model_state"],
  "refuted with two drivers sharing a preconditioner, another space, the missing attribute sr, a mutable model state; what holds instead")
p("C146", "Configuration flags",
  "A flag defined for the first time has the value of its environment variable, or the default if that is not set; for booleans precisely y, yes, t, true, on, 1 and n, no, f, false, off, 0 in any case are understood and anything else is a ValueError; a second definition is a KeyError without effect. config.update changes that flag only, to the value converted to its type, is seen through FLAGS at once, and is a KeyError without effect for an undefined name. Values always have the type given in the definition.",
  "all names, values, environments, sequences of definitions and updates",
  "all strings and environments",
  ["netket/utils/config_flags.py: bool_env, int_env, get_env, Config.define, Config.update, ReadOnlyDict"],
  "dictionaries as functions; strings as lists of characters")
p("C147", "Flags are updated like they are defined",
  "A string given to config.update means the same as in the environment; flags with runtime=False cannot be changed; a failed definition leaves no trace.",
  "all flags and strings",
  "all strings",
  ["netket/utils/config_flags.py: Config.define, Config.update"],
  "refuted by update(name, '0'), by NETKET_EXPERIMENTAL, by a bad environment variable; what holds instead")
p("C148", "MPI reductions, broadcast and gathering",
  "mpi_sum, mpi_prod, mpi_any and mpi_max of a C-ordered array of any shape return on every rank the elementwise reduction over all ranks, the array passed in is overwritten with it and no other memory changes; on one rank nothing changes; mpi_mean returns the elementwise average and leaves the sum in the array passed in; the versions for JAX arrays return the same values. Broadcast gives every rank the object of the root, all-gather on several ranks the list in the order of the ranks. _get_version_tuple reads the first three numeric components of a version with any suffix, and tuples compare at the first difference.",
  "all shapes, numbers of ranks, reductions, contents; all version strings of digits and dots with any suffix",
  "any number of ranks, memory layout",
  ["netket/utils/mpi/primitives.py: mpi_sum, mpi_prod, mpi_mean, mpi_any, mpi_max, mpi_bcast, mpi_allgather and _jax", "netket/utils/mpi/mpi.py: _get_version_tuple"],
  "memories with strided views, NumPy's rule when reshape(-1) is a view, in-place allreduce")
p("C149", "MPI primitives for any layout and any number of ranks",
  "The reductions work for arrays with any strides; mpi_allgather returns a list on any number of ranks; mpi_bcast rejects a root that does not exist; mpi_any returns truth values.",
  "all layouts and numbers of ranks",
  "memory layout",
  ["netket/utils/mpi/primitives.py: mpi_sum, mpi_allgather, mpi_bcast, mpi_any"],
  "refuted by a transposed matrix, one rank, root 7, the integer 5; theorem for every layout saying what happens")
p("C150", "character_table lists exactly the irreducible characters",
  "For a finite group whose first element is the identity, character_table() has one row per complex irreducible representation, none missing and none repeated, row i listing the value of its character on self[0], self[1], ...; character_table_by_class() lists the same values on the representatives of the classes; there are as many rows as conjugacy classes, the dimensions do not decrease and the first row is the trivial representation. prune_zeros moves no part of a value by more than 1e-8. The eigenvalues of the random combination of class matrices are distinct for almost every random vector. The permutation groups produced by the library are covered.",
  "all finite groups, orderings of the elements with the identity first, random vectors with distinct eigenvalues (almost all), eigenvectors returned by eig",
  "all groups and all random vectors; needs representation theory, not a comparison with a list",
  ["netket/utils/group/_group.py: _compute_conjugacy_classes, character_table_by_class, character_table, _cplx_sign", "netket/utils/float.py: prune_zeros, comparable"],
  "characters = common eigenfunctions of the class algebra (spherical functions); Schur's lemma and irreducible decomposition of the regular representation from Mathlib; genericity by counting hyperplanes; eig as a contract")
p("C151", "Character tables do not depend on which element comes first",
  "character_table() exists for any ordering of the elements and its rows are the irreducible characters.",
  "all orderings of all finite groups",
  "all orderings",
  ["netket/utils/group/_group.py: character_table_by_class"],
  "refuted by S3 with a transposition first (division by zero); for first elements without zero characters: rows are characters divided by the phase of their first value")
p("C152", "irrep_matrices returns unitary representations with the characters of the table",
  "Each array returned by irrep_matrices() is a unitary representation: the matrix of the identity is the identity matrix, the matrix of a product is the product of the matrices. There is one per row of the character table, and its traces are the row whenever the eigenspace picked has the dimension of the character, or is irreducible (no accidental degeneracy). Characters of real type get real matrices; characters of complex or quaternionic type never use the real symmetric matrix.",
  "all finite groups, all random vectors, all results of eigh meeting its contract",
  "all groups and random vectors",
  ["netket/utils/group/_group.py: _irrep_matrices, irrep_matrices"],
  "bins of sorted eigenvalues are unions of eigenspaces of a matrix commuting with right translations; isotypic projector; a representation of dimension χ(1) with nonzero χ-projector has character χ")
p("C153", "space_group_irreps returns the irreducible characters of the star of k",
  "For a symmorphic space group of any lattice, a wave vector whose images under the point group are allowed by the boundary conditions, and real characters of its little group: space_group_irreps(k) has one row per irreducible character of the little group, holding the values on the elements of space_group (same order) of an irreducible character of the space group; different rows and different stars give different characters, and on a periodic lattice every irreducible character of the space group arises from some allowed k. to_reciprocal_lattice returns integer coordinates of allowed wave vectors and raises InvalidWaveVectorError if a coordinate is further than 1e-8 from the integers or non-zero along an open axis; space_group_irreps raises the same if an image of k is not allowed.",
  "all dimensions, extents, boundary conditions, basis vectors, point groups, wave vectors and little-group character tables",
  "all space groups, infinitely many",
  ["netket/graph/space_group.py: space_group_irreps, _little_group_index, _little_group_irreps", "netket/graph/lattice.py: to_reciprocal_lattice"],
  "space group as a semidirect product; character induced from translations times little group; norms and scalar products by orthogonality (Mackey), completeness by Frobenius reciprocity")
p("C154", "space_group_irreps with complex characters or operations with translations",
  "(Documented form of C153 without its restrictions) also for complex characters of the little group, and for point operations carrying a translation (glides, screws, another origin), every row of space_group_irreps holds an irreducible character of the space group.",
  "all space groups and wave vectors",
  "all space groups",
  ["netket/graph/space_group.py: space_group_irreps, _little_group_irreps"],
  "refuted: a real array drops imaginary parts (threefold axis at k=0); the phase exp(-i w.p(k)) differs on equivalent images of k at the zone boundary (reflection x -> 1/2 - x at k = pi gives 0)")
p("C155", "Point, translation and space groups of a grid act as its symmetries",
  "For Grid(extent, pbc) of any dimension: the default point group contains, each once and with the identity first, exactly the operations that permute axes of equal extent and boundary condition and reverse axes, about the centre of open axes and the origin of periodic ones, and it has a product table. The arrays of point_group and rotation_group are permutations of the sites that move each site as their element does (modulo the box along periodic axes) and map edges to edges; @ of arrays is composition of operations. All elements of translation_group() and space_group() are graph automorphisms and the space group is closed under products. The arrays are pairwise different exactly if every axis has at least two sites and every periodic one at least three; then, on a periodic grid, DenseSymm and DenseEquivariant in mode fft give the results of mode matrix. For any lattice with independent basis vectors and distinct sites, translations look up the site of the same kind in the neighbouring cell.",
  "all dimensions, extents (below 3326400 per axis) and boundary conditions, all layers' inputs and parameters",
  "all grids, infinitely many groups and sites",
  ["netket/graph/common_lattices.py: _grid_point_group, _perm_symm, _axis_reflection, Grid", "netket/graph/space_group.py: point_group, rotation_group, _translations_along_axis, _full_translation_group, space_group", "netket/graph/lattice.py: id_from_position"],
  "signed permutation matrices; positions of sites modulo the box; an array and a symmetry are related by where it moves each site, a relation kept by products")
p("C156", "point_group of a grid lists every symmetry once",
  "(Documented form of C155 for short axes) also for grids with an axis of a single site or a periodic axis of two sites, point_group() and space_group() list every permutation once, and each row of their product_table is a permutation of the elements.",
  "all grids",
  "all grids",
  ["netket/graph/common_lattices.py: _grid_point_group", "netket/graph/space_group.py: point_group, space_group", "netket/utils/group/_permutation_group.py: product_table"],
  "refuted for every such grid: the reflection of the short axis is the identity permutation, listed twice; every row of the table repeats indices")
p("C157", "DenseSymm, DenseEquivariant and GCNN build layers that compute the group's transform",
  "`nk.nn.DenseSymm` on a periodic lattice with a point group returns, in each of the modes auto, fft and matrix, a layer whose output is sum_i x_i w[g(i), f] + b_f for the space group; for graphs, permutation groups, sequences and arrays modes auto and matrix do. `nk.nn.DenseEquivariant` on such a lattice (auto, fft) and on a permutation group (auto, irreps, matrix) returns a layer computing the group convolution. `nk.models.GCNN` on a lattice (auto, fft, irreps), on a permutation group (auto, irreps) and on an array with irreps or a product table has the amplitude of the group convolutional network, independent of the mode; permuting the sites by a group element multiplies the amplitude by its character, and leaves it unchanged for the default characters. The kinds of arguments DenseSymm accepts are exactly those listed, and the refused ones raise TypeError (fft without shape) or ValueError.",
  "all groups, lattices, point groups, numbers of layers and features, parameters, activations and inputs",
  "tests build a few small lattices and compare one random output per mode",
  ["netket/nn/symmetric_linear.py:617-681", "netket/nn/symmetric_linear.py:684-787", "netket/models/equivariant.py:522-686"],
  "small model of the dispatch, composed with C61, C62, C84, C85, C152")
p("C158", "Symmetries DenseEquivariant and GCNN document but do not accept",
  "`DenseEquivariant` and `GCNN` accept a nk.graph.Graph in mode auto, DenseEquivariant accepts all four documented modes for a lattice, GCNN accepts its documented mode matrix, a product table is accepted in every form and only with valid modes, and characters can be given as an array.",
  "all graphs, lattices, groups, tables and modes",
  "tests never use graphs without point group, mode matrix on lattices, or array characters",
  ["netket/nn/symmetric_linear.py:725-787", "netket/models/equivariant.py:581-640"],
  "each clause is refuted: NameError, AttributeError, silent FFT layer, returned exception object, ValueError")
p("C159", "BCC, FCC, Diamond, Pyrochlore, Triangular, Honeycomb and Kagome connect nearest neighbours",
  "For positive extents and any boundary conditions (for the one-site lattices BCC, FCC and Triangular at least one axis must be periodic or longer than one cell), the lattice has prod(extent) times the number of sites per cell nodes, one for each site of the box; two different sites are connected exactly when some copy of the second under translations along the periodic sides of the box is at the least distance between different points of the infinite lattice from the first; that distance is sqrt(3)/2, sqrt(1/2), sqrt(3)/4, sqrt(1/8), 1, 1/sqrt(3), 1/2 respectively; there are no loops and no repeated edges. With periodic boundaries and at least three cells along each axis every site has exactly 8, 12, 4, 6, 6, 3, 4 neighbours.",
  "all extents, boundary conditions and distance tolerances >= 0",
  "tests check the number of nodes and edges of one small lattice each",
  ["netket/graph/common_lattices.py:209-436", "netket/graph/lattice.py:64-144", "netket/graph/lattice.py:281-331"],
  "real geometry; squared distances are integer quadratic forms, classified by their minimal vectors")
p("C160", "Arguments of lattices are checked and normalised",
  "Basis vectors must be a square array, pbc a boolean or a sequence of booleans of length ndim, site_offsets and atoms_coord cannot both be given, Grid takes exactly one of extent and length: anything else is a ValueError (TypeError for the extent). A boolean pbc stands for all axes, atoms_coord and length are synonyms, no offsets means one site at the origin. Among offsets equal modulo the unit cell the first one is kept with a warning, in which case they are sorted; otherwise they stay as given. Hypercube, Cube, Square and Chain are grids of equal sides.",
  "all arguments",
  "tests try one bad value of a few arguments",
  ["netket/graph/lattice.py:333-405", "netket/graph/common_lattices.py:63-206"],
  "small functions modelled directly")
p("C161", "Sites given outside of the unit cell give a warning",
  "`Lattice` warns when site offsets lie outside of the primitive cell, since edges may then be wrong.",
  "all offsets",
  "no test gives such offsets",
  ["netket/graph/lattice.py:366-387"],
  "refuted: the check is made on coordinates already reduced modulo the cell, so the warning is never issued; a concrete chain loses an edge")
p("C162", "random_state gives states of the space in the documented shape",
  "hilbert.random_state(key, size) for Spin, Fock, Qubit, CustomHilbert, tensor products and doubled spaces in any nesting returns a single state, a batch of `size` states, or an array of leading shape `size` (a tuple of up to three positive integers); every row is a state of the space (local states and constraints of every factor). A tuple gives the rows of the batch of its product, no size the row of a batch of one. A CustomHilbert with a constraint or infinitely many local states is a NotImplementedError, on its own, in a product, and doubled.",
  "all spaces, keys, sizes and random number streams",
  "tests draw a few states of a fixed list of spaces",
  ["netket/hilbert/abstract_hilbert.py:69-125", "netket/hilbert/random/base.py:26-101", "netket/hilbert/random/custom.py:22-36", "netket/hilbert/random/doubled.py:25-32", "netket/hilbert/random/tensor_hilbert.py:22-31", "netket/hilbert/random/fock.py:24-61", "netket/hilbert/random/spin.py:23-95", "netket/hilbert/random/qubit.py:22-25"],
  "mutual induction over nested spaces; random numbers abstract")
p("C163", "The distribution of random_state",
  "Given independent uniform draws: without constraint all states are equally likely (Spin, Fock, Qubit, CustomHilbert); so are the states of spin 1/2 with total_sz and of hard-core bosons (n_max = 1). A Fock space with n_particles <= n_max (or no n_max) gives occupations with the multinomial distribution; so do spins larger than 1/2 for the raisings above the lowest state as long as there are at most 2s of them.",
  "all sizes, cut-offs, constraints and states",
  "tests do not look at the distribution",
  ["netket/hilbert/random/fock.py:24-61", "netket/hilbert/random/spin.py:23-95", "netket/hilbert/random/qubit.py:22-25", "netket/hilbert/random/custom.py:22-36"],
  "count the random numbers leading to a given state, by induction over the draws")
p("C164", "random_state is uniform, takes any size and works without a key",
  "random_state returns uniformly distributed states of the space, of shape (*size, N) for any tuple, also in the deprecated form without a key.",
  "all spaces and sizes",
  "tests use few sizes and do not look at the distribution",
  ["netket/hilbert/abstract_hilbert.py:81-93", "netket/hilbert/random/base.py:23", "netket/hilbert/random/fock.py:45-61", "netket/hilbert/random/spin.py:79-95", "netket/hilbert/fock.py:178-201", "netket/hilbert/spin.py:159-195"],
  "refuted: constrained bosons and larger spins are not uniform; tuples of more than three dimensions are not dispatched; the deprecated form never draws n_max for Fock and does not exist for products")
p("C165", "DenseGeneral and Dense contract the documented axes",
  "nk.nn.DenseGeneral(features, axis, batch_dims) on an input of shape B + F + C, batch axes first and transformation along the last axes (given by positive or negative numbers), returns an array of shape B + F + features with entries sum_k x[b,f,k] kernel[b,k,o] + bias[b,o]. nk.nn.Dense is the case of the last axis. The initial kernel is for every batch index the matrix kernel_init gives for the flattened shape. batch_dims that leave out an earlier axis raise ValueError.",
  "all shapes, features, axes, parameters and inputs over any commutative ring",
  "tests compare a few shapes with einsum",
  ["netket/nn/linear.py:37-39", "netket/nn/linear.py:42-152", "netket/nn/linear.py:155-202"],
  "arrays as functions of multi-indices; dot_general, expand_dims and broadcasting modelled")
p("C166", "DenseGeneral along any axis, with any dtype",
  "nk.nn.DenseGeneral transforms along any given axes and adds to each feature its bias; the parameters have the given dtype.",
  "all shapes, axes and dtypes",
  "tests use bias_init = zeros or ones",
  ["netket/nn/linear.py:103-121", "netket/nn/linear.py:132-152"],
  "refuted: along the first axis of a matrix the bias is added to the rows (or the call raises); the parameters are float64 whatever the dtype")
p("C167", "Equal Hilbert spaces are the same space",
  "== on Hilbert spaces (Spin, Fock, Qubit, CustomHilbert, tensor products and doubled spaces, nested in any way) is an equivalence relation; equal spaces have equal hashes, the same number of degrees of freedom and the same configurations. Equal spaces made of spins, bosons and qubits number the local states of every site alike. Unconstrained Spin, Fock and Qubit spaces are equal exactly when class and arguments agree.",
  "all spaces and all hash functions of python objects",
  "tests compare a few pairs",
  ["netket/hilbert/abstract_hilbert.py:146-164", "netket/hilbert/homogeneous.py:66-88", "netket/hilbert/homogeneous.py:185-193", "netket/hilbert/spin.py:155-157", "netket/hilbert/fock.py:159-161", "netket/hilbert/qubit.py:72-74", "netket/hilbert/tensor_hilbert.py:139-141", "netket/hilbert/doubled_hilbert.py:135-137"],
  "function objects carry their identity; mutual induction over nested spaces")
p("C168", "Spaces built with the same arguments are equal, and equal spaces number their states alike",
  "Two Hilbert spaces constructed with the same arguments compare equal; two equal spaces assign the same numbers to the same states.",
  "all spaces",
  "tests compare unconstrained spaces only",
  ["netket/hilbert/spin.py:95-107", "netket/hilbert/fock.py:62-97", "netket/hilbert/homogeneous.py:71-81", "netket/hilbert/homogeneous.py:185-193", "netket/hilbert/discrete_hilbert.py:210-221"],
  "refuted: every constrained Spin or Fock carries its own constraint closure and so equals no other; a CustomHilbert equals the one with permuted local states, and their product is the square of the first")
p("C169", "Automorphisms, distances and unions of graphs",
  "Graph.automorphisms() lists every permutation of the nodes that preserves edges and colours exactly once, the identity first; they form a group with inverses and product table. distances() gives the number of steps of a shortest path between connected nodes. from_igraph(to_igraph()) is the graph; directed graphs and colours that are not integers raise ValueError; without colours every edge has colour 0. disjoint_union has the nodes of both graphs and exactly their edges with their colours.",
  "all graphs, all orders in which igraph finds the isomorphisms",
  "tests look at a few lattices",
  ["netket/graph/graph.py:86-119", "netket/graph/graph.py:192-214", "netket/graph/graph.py:263-267", "netket/graph/abstract_graph.py:66-71"],
  "isomorphism search of igraph is an argument specified by its result; distances by breadth-first search")
p("C170", "The distance between unconnected nodes is -1",
  "distances() contains -1 for every pair of nodes without a path between them, as documented in AbstractGraph.distances.",
  "all graphs and pairs of nodes",
  "tests use connected graphs",
  ["netket/graph/abstract_graph.py:66-71", "netket/graph/graph.py:192-193"],
  "refuted: igraph's inf is returned")
p("C171", "Arithmetic on pytrees, dtypes, composition and keys across processes",
  "For pytrees of one structure tree_dot(a, b) is the dot product of the flattened arrays and tree_dot(tree_conj(a), a) the squared norm; tree_axpy(a, x, y) flattens to a*x + y; tree_cast gives every leaf the dtype of the target and the value cast to it, discarding imaginary parts only for targets that are not complex. dtype_real and dtype_complex are inverse to each other for single and double precision; maybe_promote_to_complex promotes the first dtype exactly if one is complex. compose(f, g, h)(x) is f(g(h(x))). PRNGKey gives all processes of the communicator the key of the root; mpi_split gives all processes different keys which depend on the key of the root only.",
  "all pytrees, dtypes, lists of functions, numbers of processes and keys",
  "tests use a few trees and one process",
  ["netket/jax/utils.py:104-231", "netket/jax/utils.py:308-358"],
  "trees with exact complex entries; ideal keys; broadcast gives the value of the root")
p("C172", "Homogeneous trees, empty trees and splitting over a communicator",
  "tree_ishomogeneous is True only if all leaves are real or all are complex. tree_dot of trees without leaves is the dot product of their flattened arrays. mpi_split(key, root, comm) splits the key of the root of comm over the processes of comm.",
  "all pytrees; all communicators",
  "tests use floating leaves, trees with leaves and the default communicator",
  ["netket/jax/utils.py:136-140", "netket/jax/utils.py:181-194", "netket/jax/utils.py:338-358"],
  "refuted: integer leaves are neither real nor complex; reduce without start raises; comm is ignored")
p("C173", "Legacy optimizers perform the documented updates",
  "For every sequence of gradients, netket.legacy.optimizer.Sgd uses the learning rate eta*gamma^n in update n, Momentum the exponentially weighted mean of all gradients, AdaGrad the root of the accumulated squared gradients, RmsProp the root of their weighted mean, AdaDelta the documented recursion, AdaMax algorithm 2 of Kingma and Ba, AmsGrad a second moment that never decreases; no division by zero. reset() of Sgd, Momentum, RmsProp, AdaMax and AmsGrad makes the optimizer act like a new one. Arguments outside of the documented ranges raise ValueError.",
  "all arguments, all numbers of parameters, all sequences of gradients",
  "tests run a few steps with default arguments",
  ["netket/legacy/optimizer/numpy/sgd.py:4-25", "netket/legacy/optimizer/numpy/momentum.py:19-58", "netket/legacy/optimizer/numpy/ada_grad.py:24-57", "netket/legacy/optimizer/numpy/rms_prop.py:21-62", "netket/legacy/optimizer/numpy/ada_delta.py:21-65", "netket/legacy/optimizer/numpy/ada_max.py:25-83", "netket/legacy/optimizer/numpy/ams_grad.py:25-78"],
  "vectors over an index type, exact arithmetic, closed forms by induction over the updates")
p("C174", "Documented options of the legacy optimizers",
  "Sgd accepts decay factors gamma <= 1. reset() works for AdaGrad and AdaDelta. The factory AmsGrad uses its arguments. AdaDelta uses l2reg. AdaMax can be used with every accepted beta1. RmsProp divides by sqrt(s) + epsilon. Sgd for jax machines uses l2reg and decay_factor. Optimizers of torch can be wrapped and wrapped optimizers of jax printed.",
  "all arguments",
  "tests use the default arguments",
  ["netket/legacy/optimizer/numpy/sgd.py:16", "netket/legacy/optimizer/numpy/ada_grad.py:59-61", "netket/legacy/optimizer/numpy/ada_delta.py:67-70", "netket/legacy/optimizer/ams_grad.py:40", "netket/legacy/optimizer/numpy/ada_max.py:73", "netket/legacy/optimizer/jax/__init__.py:39-41", "netket/legacy/optimizer/torch.py:31", "netket/legacy/optimizer/jax/wrap.py:44-59"],
  "refuted clause by clause")
p("C175", "Legacy samplers: proposals, acceptance, bookkeeping and replica exchange",
  "netket.legacy.random.randint is uniform on [low, high). MetropolisLocal proposes, for a uniformly drawn site, every other local state with equal probability; MetropolisExchange swaps the sites of a cluster, the clusters being the pairs within d_max. Both chains leave |psi|^machine_pow stationary and satisfy detailed balance. The constructor, reset, __next__ and generate_samples keep one configuration per chain and the log values of exactly these configurations, count sweep_size*n_chains moves per sample, and return independent copies; acceptance is in [0,1]. With parallel tempering the replicas hold the inverse temperatures 1-i/n, each once, the configuration returned is that of the replica at 1, for even n pairs exchange with the probability that gives detailed balance for the tempered product, counters follow the temperatures, and the diffusion statistics are the mean and the summed squared deviation of the position. ExactSampler after reset draws with probability proportional to |psi|^machine_pow.",
  "all local states, clusters, wavefunctions, powers, numbers of chains, replicas and moves, all random numbers",
  "statistical tests on small systems cannot establish the stationary distribution for all machines",
  ["netket/legacy/random.py:49-65", "netket/legacy/sampler/numpy/local_kernel.py:9-33", "netket/legacy/sampler/numpy/exchange_kernel.py:11-32", "netket/legacy/sampler/metropolis_exchange.py:6-92", "netket/legacy/sampler/numpy/metropolis_hastings.py:12-131", "netket/legacy/sampler/abstract_sampler.py:42-59", "netket/legacy/sampler/numpy/metropolis_hastings_pt.py:43-244", "netket/legacy/sampler/exact_sampler.py:30-70"],
  "Markov kernels of Spec/Markov, invariants over executions, heap for the array returned by __next__")
p("C176", "Legacy samplers: documented behaviour of the remaining options",
  "MetropolisHamiltonian samples |psi|^machine_pow. list(sampler.samples(n)) holds n successive configurations. n_chains must be positive and can be changed. MetropolisLocal starts in the Hilbert space. Parallel tempering works for every number of replicas, includes the flat distribution, and n_replicas can be changed. ExactSampler.generate_samples samples the present machine.",
  "all operators, machines, numbers of chains and replicas",
  "the Hamiltonian kernel is only tested with constant numbers of connected configurations or loose statistics",
  ["netket/legacy/sampler/numpy/hamiltonian_kernel.py:16-41", "netket/legacy/sampler/numpy/metropolis_hastings.py:30-42", "netket/legacy/sampler/numpy/metropolis_hastings.py:80-82", "netket/legacy/sampler/numpy/metropolis_hastings.py:126", "netket/legacy/sampler/numpy/local_kernel.py:28-33", "netket/legacy/sampler/numpy/metropolis_hastings_pt.py:43-65", "netket/legacy/sampler/numpy/metropolis_hastings_pt.py:185-198", "netket/legacy/sampler/exact_sampler.py:48-61"],
  "refuted clause by clause, with the law the Hamiltonian chain really samples")
p("C177", "Legacy machines: amplitudes, log-derivatives, symmetries and conversion to arrays",
  "exp(RbmSpin.log_val(x)) is e^{sum a s} prod cosh(W s + b) (real machines: for every configuration; complex ones: if no hidden input is purely imaginary and non-zero), and der_log is the gradient of its logarithm with respect to `parameters`, with and without automorphisms. With a group of automorphisms log_val is equal on symmetry-related configurations, also for RbmMultiVal, whose one-hot encoding is injective. RbmSpinPhase has the modulus of the first and the phase of the second network, and der_log is the gradient of its log_val. Jastrow.log_val is sum a s + sum_{i<j} s_i W_ij s_j, der_log its gradient; without automorphisms every pair has its own parameter, with a group of automorphisms two pairs share a parameter iff an automorphism maps one to the other, and log_val without visible bias is invariant. The parameter setters store exactly what they get and reject wrong lengths; n_par, n_hidden and alpha are related as documented. to_array() is the normalised amplitude, log_norm(order) the log of sum |psi|^order, vector_jacobian_prod the (conjugated) product; to_matrix() of a density matrix has trace one and the density-matrix RBM is the RBM of row and column.",
  "all numbers of sites, hidden units and automorphisms, all parameters, configurations, batches and options",
  "tests compare with numerical derivatives at random points of small machines, and never check the symmetry orbits or the invariance for all groups",
  ["netket/legacy/machine/rbm.py:28-31", "netket/legacy/machine/rbm.py:93-142", "netket/legacy/machine/rbm.py:144-231", "netket/legacy/machine/rbm.py:277-402", "netket/legacy/machine/rbm.py:592-657", "netket/legacy/machine/rbm.py:700-803", "netket/legacy/machine/jastrow.py:64-253", "netket/legacy/machine/abstract_machine.py:38-152", "netket/legacy/machine/density_matrix/abstract_density_matrix.py:59-120", "netket/legacy/machine/density_matrix/rbm.py:17-85", "netket/legacy/machine/density_matrix/diagonal.py:6-43"],
  "amplitude as a separate formula over finite products; HasDerivAt of it; orbit relation for Jastrow tables; IsPermGroup for invariance")
p("C178", "Legacy machines: documented behaviour of the remaining options",
  "Every hidden unit contributes the factor cosh of its input. The array `out` of log_val receives the values returned. vector_jacobian_prod accepts three-dimensional arrays of configurations. automorphisms=False means the same for RbmSpin and RbmMultiVal; n_hidden is checked against the automorphisms. JastrowSymm is symmetric. A rejected assignment of parameters changes nothing; alpha_a has priority over alpha. to_array(normalize=False) returns the amplitudes, to_array() of a density matrix has trace one, to_matrix(normalize=False) is not normalised, log_trace is the logarithm of the trace. A density-matrix RBM can have automorphisms, and the parameters of the diagonal can be set.",
  "all parameters, configurations and options",
  "no test of the legacy machines calls these with the offending arguments",
  ["netket/legacy/machine/rbm.py:28-31", "netket/legacy/machine/rbm.py:161-179", "netket/legacy/machine/rbm.py:343-383", "netket/legacy/machine/rbm.py:604-614", "netket/legacy/machine/rbm.py:710-716", "netket/legacy/machine/rbm.py:800-803", "netket/legacy/machine/jastrow.py:132-147", "netket/legacy/machine/abstract_machine.py:55-64", "netket/legacy/machine/abstract_machine.py:98-127", "netket/legacy/machine/density_matrix/abstract_density_matrix.py:59-143", "netket/legacy/machine/density_matrix/rbm.py:17-37", "netket/legacy/machine/density_matrix/diagonal.py:40-43"],
  "refuted clause by clause")
p("C179", "Legacy SR: choice of solver and the equation the update solves",
  "SR(machine, lsq_solver, use_iterative, svd_threshold): 'gmres', 'cg', 'minres' select the iterative solver of that name and the dense names a dense one, whatever use_iterative says; without a name the iterative solver is minres for real and gmres for complex parameters; unknown names and minres with complex parameters are a RuntimeError, a threshold with an iterative solver a ValueError. scale_invariant_regularization is accepted for dense solvers only. With S the covariance of the log-derivatives of all samples of all processes (the same number on each), compute_update returns the unique solution of (S + diag_shift) x = f for complex parameters, on every process, and a real solution of the real part of the equation for real parameters (iterative: on every process; least squares: in a run of one process). The forces are not changed; a negative info is a RuntimeError; the solution is the first guess of the next call.",
  "all numbers of processes, samples and parameters, all log-derivatives, forces and positive shifts, all solvers that solve solvable systems",
  "tests run the optimizer on small machines and only check that the energy goes down",
  ["netket/legacy/optimizer/numpy/stochastic_reconfiguration.py:20-110", "netket/legacy/optimizer/numpy/stochastic_reconfiguration.py:112-224", "netket/legacy/optimizer/numpy/stochastic_reconfiguration.py:226-278", "netket/legacy/optimizer/numpy/stochastic_reconfiguration.py:293-321", "netket/legacy/stats/mpi_stats.py:34-57"],
  "covariance of a pooled list as separate spec; positive semidefinite form, injective implies surjective")
p("C180", "Legacy SR: scale invariance, real dense solvers and repr",
  "The scale-invariant regularization is that of Becca and Sorella and leaves the forces of the caller alone. For real parameters dense solvers use the samples of all processes, all processes get the same update, and Cholesky solves the same equation as least squares. Processes may have different numbers of samples. A rejected call changes nothing. repr describes the object.",
  "all samples, forces, shifts and solvers",
  "no test uses the regularization, more than one process, or repr of a dense SR",
  ["netket/legacy/optimizer/numpy/stochastic_reconfiguration.py:129-134", "netket/legacy/optimizer/numpy/stochastic_reconfiguration.py:199-222", "netket/legacy/optimizer/numpy/stochastic_reconfiguration.py:226-258", "netket/legacy/optimizer/numpy/stochastic_reconfiguration.py:280-291"],
  "refuted clause by clause")
p("C181", "Legacy drivers: turns of run, sample numbers and gradients of Vmc, SteadyState and Qsr",
  "run(n_iter, step_size) performs ceil(n_iter/step_size) turns of step_size optimisation steps each, unless a callback asks to stop; in each turn the driver makes a gradient, updates the parameters, then logs loss and observables and asks every callback, and the loggers are flushed at the end on the root. advance(m) performs m steps. n_samples is rounded up to a multiple of chains times processes. With the same number of samples on every process the gradient of Vmc is the covariance of local energies and log-derivatives over all samples, so on samples representing |psi|^2 exactly it gives the derivative of the energy; with SR the update solves (S + shift) x = F for these samples. The gradient of SteadyState is half the derivative of |L rho|^2/|rho|^2, and that of Qsr the derivative of the negative log-likelihood of the data as computed by nll with the exact norm, with and without SR and whatever shift of exponents is used.",
  "all numbers of iterations, step sizes, callbacks, loggers, processes, samples, operators, data and differentiable machines",
  "tests run a few iterations of one example and compare gradients with finite differences at one parameter vector with a tolerance",
  ["netket/legacy/abstract_variational_driver.py:94-247", "netket/legacy/_vmc.py:60-199", "netket/legacy/_steadystate.py:80-301", "netket/legacy/_qsr.py:60-283"],
  "list of events of a run as separate spec; averages over pooled samples; derivative of a quotient of sums of squares and of log of a sum")
p("C182", "Legacy drivers: iterators, lists of observables, reset and defaults",
  "run accepts any iterable of loggers and callbacks and calls each of them in every turn; a list of observables as documented; reset starts again from step zero; iteration numbers which are no integers are rejected at the start. Qsr.n_samples is the number of samples drawn and bad arguments are a ValueError. SteadyState uses the documented defaults for observables. Machines with real parameters can be optimised with SR and by Qsr.",
  "all drivers, arguments and callbacks",
  "tests use lists, dictionaries of observables and complex machines only, and never call reset",
  ["netket/legacy/abstract_variational_driver.py:94-247", "netket/legacy/_vmc.py:60-199", "netket/legacy/_steadystate.py:80-301", "netket/legacy/_qsr.py:60-283"],
  "refuted clause by clause")
p("C183", "Quantum geometric tensor on several processes, as a tree, and with dense solvers",
  "With R processes holding the same number of samples, the product with QGTOnTheFly, QGTJacobianDense and QGTJacobianPyTree is the product with the tensor of all R times n samples pooled on one process, in all modes and with a shift; the stored gradients of a process are its rows of those of all samples and the scales of rescaling are those of all samples. The three implementations agree with each other for any number of processes. QGTOnTheFly takes dense vectors of the right length only. The matrix given by to_dense of the tree has one column per real and two per complex parameter, ordered as the ravelled split tree, and its product with a ravelled vector is the product of the operator, with and without scale; rescaling adds shift times the diagonal of S. With svd, cholesky, LU or solve and a positive shift, solve(y) gives the x with (S + shift) x = y, for dense and tree Jacobians with real and complex leaves, with and without rescaling, on any number of processes.",
  "all numbers of processes, samples and parameters, all Jacobians, vectors, leaves, scales and shifts",
  "tests on several processes are run with two processes and one network and compare with a tolerance",
  ["netket/optimizer/qgt/qgt_onthefly.py:27-166", "netket/optimizer/qgt/qgt_onthefly_logic.py:28-98", "netket/optimizer/qgt/qgt_jacobian_dense.py:36-230", "netket/optimizer/qgt/qgt_jacobian_dense_logic.py:1-290", "netket/optimizer/qgt/qgt_jacobian_pytree.py:36-243", "netket/optimizer/qgt/qgt_jacobian_pytree_logic.py:1-285", "netket/optimizer/solver/solvers.py:21-72"],
  "pooling of samples: sums over processes and samples as sums over all samples; the pooled tensor is that of C65")
p("C184", "QGTJacobianPyTree: initial guess",
  "solve(..., x0=guess) of QGTJacobianPyTree accepts a tree with the structure of the parameters as initial guess.",
  "all trees, modes and scales",
  "tests call solve of the tree with an initial guess for real parameters or holomorphic mode only",
  ["netket/optimizer/qgt/qgt_jacobian_pytree.py:202-229"],
  "refuted; what holds as partial theorem")
p("C185", "Legacy statistics, estimate_expectations, loggers and random numbers",
  "Sums and sizes over processes are those of all data; for shards of equal size mean, var and subtract_mean are those of all data, and statistics gives on every process what netket.stats.statistics gives for all chains on one process. estimate_expectations gives mean and variance of all local values and, on one process with one chain, the covariance of local values and log-derivatives. A run of the JSON logger with data that can be encoded, steps that do not go back and one dictionary per call raises nothing; the file then holds the old entries in mode append, followed by the entries of the calls up to the last of every write_every-th call, the parameter file the machine of the last of every save_params_every-th call, and flush writes everything; the three modes do what they are documented to do. The tensorboard logger writes exactly the numbers of the tree, each under the keys that lead to it. randint gives every integer of its range for draws from intervals of equal length, uniform stays in its range, and a given seed determines the seeds of all processes.",
  "all numbers of processes, chains and samples, all data, all sequences of calls, intervals, files and trees, all draws",
  "tests of the legacy statistics run on one process; the loggers are tested with one short run that looks at the existence of files",
  ["netket/legacy/stats/mpi_stats.py:15-137", "netket/legacy/stats/mc_stats.py:30-175", "netket/legacy/variational.py:8-70", "netket/legacy/logging/_json_log.py:1-115", "netket/logging/json_log_old.py:1-156", "netket/logging/tensorboard.py:20-135", "netket/legacy/random.py:1-60"],
  "statistics reduce to C54; invariant of the logger over runs of calls; induction over trees")
p("C186", "Legacy statistics and loggers: deviations",
  "Shards may have different sizes. subtract_mean leaves its argument alone. Names that are no field of Stats are a KeyError and the JSON output determines the mean. The gradient of estimate_expectations is the covariance for any number of chains and the same on all processes; R_hat is given for several chains; n_discard=0 discards nothing. Data that cannot be encoded leave the log file as it was; logging does not change the dictionary it is given; write_every=0 is refused by the constructor; complex numbers are logged. Different numbers have different tags in tensorboard. Without a seed all processes derive their seeds from one number.",
  "all data, numbers of chains and processes, sequences of calls",
  "tests use one process, one short run and real data",
  ["netket/legacy/stats/mpi_stats.py:15-57", "netket/legacy/stats/mc_stats.py:44-72", "netket/stats/mc_stats.py:64-109", "netket/legacy/variational.py:46-67", "netket/logging/json_log_old.py:20-156", "netket/logging/tensorboard.py:20-135", "netket/legacy/random.py:10-30"],
  "every clause is refuted; what holds as partial theorems")
p("C187", "Padded connected elements, numbers of connected elements and derivatives of local values for jax machines",
  "get_conn_padded returns one row per configuration, all of one length: the connected elements of the configuration (for LocalOperator and BoseHubbard followed by entries with matrix element zero, for Ising and PauliStrings without padding), for every non-empty batch, for LocalOperator with at least one connected element. n_conn returns the numbers of connected elements. The cost functions applied to a padded row are the local values, for operators and for density matrices. der_local_values_jax returns what the version for other machines returns, that is the derivatives of the local values, for complex parameters with complex log-amplitudes or matrix elements and for real parameters; without centering, for complex log-amplitudes. Arrays that are not two-dimensional are a RuntimeError, rows of a wrong width an AssertionError. The sum and the difference of BoseHubbard operators on the same graph have the sums and differences of the matrix elements.",
  "all operators built through the API, all batches, all contents of uninitialised memory, all differentiable machines and parameters",
  "tests compare padded and flattened elements for a few operators and random states; the jax derivatives are compared with a numeric derivative at one point",
  ["netket/operator/_abstract_operator.py:100-233", "netket/operator/_local_cost_functions.py:180-213", "netket/operator/_der_local_values_jax.py:25-175", "netket/operator/_hamiltonian.py:60-110", "netket/operator/_hamiltonian.py:481-600", "netket/operator/_pauli_strings.py:150-260"],
  "reduce padded rows to the kernels of C17 and C22; derivative of finite sums; C94 for the values")
p("C188", "Padded connected elements and jax derivatives: deviations",
  "get_conn_padded works for every operator and every batch. Padding entries belong to the Hilbert space. Derivatives without centering are right for real log-amplitudes and complex matrix elements, and derivatives exist for complex parameters with real log-amplitudes and matrix elements. Lazy adjoints, transposes and squares raise NotImplementedError when their connected elements are asked for. The sum of two BoseHubbard operators is the sum of their matrices, whatever their graphs.",
  "all operators, batches, machines and graphs",
  "tests use connected graphs, equal graphs, operators with diagonal elements and complex machines",
  ["netket/operator/_abstract_operator.py:149-157", "netket/operator/_lazy.py:60-180", "netket/operator/_der_local_values_jax.py:25-175", "netket/operator/_hamiltonian.py:481-600", "netket/operator/_hamiltonian.py:700-800"],
  "every clause is refuted; what holds as partial theorems")
p("C189", "Construction of samplers, and samplers on several devices",
  "The constructors of Metropolis samplers succeed for exactly the documented arguments (otherwise TypeError or ValueError) and set every field: n_sweeps to the size of the space if not given, n_chains_per_rank to the smallest positive number with which all processes together have n_chains (default 16) chains; process 0 warns if there are more. MetropolisExchange takes the pairs of a graph within d_max, each once, or the given pairs; operators on another space are refused by init_state. replace changes the given fields only. MetropolisSamplerPmap uses the smallest positive number of chains per device with which all devices of all processes have n_chains chains; in every sequence of reset and sample calls each device runs its own sampler and its rows follow one another in the samples; sample is repeated sample_next; n_steps and acceptance count the moves of all chains, devices and processes.",
  "all arguments, numbers of processes, devices and chains, all rules and machines, all sequences of calls",
  "tests construct a few samplers on one process; the sampler on several devices is tested with one device",
  ["netket/sampler/base.py:60-150", "netket/sampler/metropolis.py:204-271", "netket/sampler/metropolis.py:376-527", "netket/sampler/metropolis_numpy.py:284-304", "netket/sampler/metropolis_pmap.py:31-254", "netket/sampler/rules/exchange.py:99-143", "netket/sampler/rules/hamiltonian.py:48-64", "netket/sampler/rules/hamiltonian_numpy.py:50-69", "netket/utils/struct/dataclass.py:411-417"],
  "case analysis of the constructors; least element of a set of integers; induction over calls")
p("C190", "Construction of samplers: deviations",
  "A sampler on several devices rounds n_chains to the nearest multiple of the number of devices, warns when it uses another number, and returns samples of the given dtype. Exponents and numbers of chains and sweeps must be positive. A sampler with a new Hilbert space and no given n_sweeps sweeps as often as the new space has sites. Exchange pairs are sites of the space. Every sampler can be printed. acceptance_ratio is None before the first sample.",
  "all arguments",
  "tests use valid numbers, one device, the default type, and do not print parallel tempering samplers",
  ["netket/sampler/metropolis_pmap.py:80-158", "netket/sampler/base.py:85-131", "netket/sampler/metropolis_pt.py:412-436", "netket/sampler/metropolis.py:161-179", "netket/vqs/mc_mixed_state.py:126-131", "netket/sampler/rules/exchange.py:137-143"],
  "every clause is refuted; what holds as a partial theorem")
p("C191", "Names of point-group symmetries",
  "The name of a symmetry of the plane or of space describes it: translations are named with their vector; rotations by a whole number of degrees with this number, the axis as the integer vector without common factor and the point of the axis nearest to the origin, or the translation along the axis for a screw; reflections with the angle or the normal and the point of the mirror nearest to the origin, or the translation in the mirror for a glide; inversions and rotoreflections with their centre. Coordinates are printed to within 1/2000, and fractions with denominators up to 99 and such multiples of the square root of three exactly and in lowest terms. The point and the translation are the only ones for which the symmetry is its linear part about the point followed by a translation that commutes with it.",
  "all isometries of the plane and of space with linear parts of whole degrees about axes of integer direction and all translations, all complex Schur decompositions",
  "tests compare names of a few listed symmetries",
  ["netket/utils/group/_point_group.py:137-353"],
  "uniqueness of the decomposition of an isometry; columns of a Schur decomposition of a normal matrix are eigenvectors; bounds on the rounding")
p("C192", "Generic groups, translation groups and default point groups",
  "In a collection of elements that stand for elements of a group, inverse gives the index of an inverse of each element that has one in the collection, the last such. (A @ B)(x) is A applied to every array of B(x), in the order of the elements of A @ B. repr shows every element, or beyond 31 the first and last fifteen. translation_group(axes) consists of the translations by the vectors in their names, which are the sums of the steps along the periodic ones of the given axes, the last axis running fastest; no argument means all axes, axes count from the end if negative and are an IndexError out of range. A point group given to space_group_builder is used with the unit cell of the lattice; otherwise the default of the lattice is used, a function given as default being called once, or RuntimeError.",
  "all collections and groups, all extents, boundary conditions and numbers of sites per cell, all axes, all sequences of requests",
  "tests use point and permutation groups and all axes at once",
  ["netket/utils/group/_group.py:104-119", "netket/utils/group/_semigroup.py:146-171", "netket/graph/space_group.py:38-72", "netket/graph/space_group.py:130-177", "netket/graph/lattice.py:557-630"],
  "induction over the loops; translations by integer vectors modulo the extents add up")
p("C193", "Generic groups, equality of point groups and default groups: deviations",
  "product_table of a FiniteGroup gives the index of g^-1 h, and a collection without the inverse of an element is reported. Point groups are equal exactly if they have the same elements in the same order and the same unit cell or none, equality is symmetric and equal groups have equal hashes. translation_group accepts every sequence of axes and every integer. The default point group of a lattice is fixed when the lattice is constructed.",
  "all collections, all point groups, all axes",
  "tests do not use the base class, do not compare point groups of different lengths or without unit cell, and use python integers",
  ["netket/utils/group/_group.py:104-139", "netket/utils/group/_point_group.py:392-403", "netket/graph/space_group.py:163-177", "netket/graph/common_lattices.py:112-121"],
  "every clause is refuted; what holds as partial theorems")
p("C194", "Saved variables are loaded again",
  "variables_from_file and variables_from_tar restore what was saved: loading succeeds exactly if every key of the given variables was saved, the result has the keys of the given variables and the saved arrays at their leaves, and is the saved tree itself if the structure is the same. The extension is added exactly if there is no file of the given name. After a run with StateLog that saves every k-th state, number j of the folder or the archive loads the variables of call k*j, other indices of an archive are a KeyError, and appending adds numbers after the largest one while earlier numbers still load what they did.",
  "all nested dictionaries, all runs, all folders and archives",
  "tests save and load single states of one model and do not combine the logger with the loader",
  ["netket/vqs/experimental.py:8-75", "netket/logging/state_log.py:60-193"],
  "model of flax.serialization.from_state_dict on dictionaries, of the resolution of names and of members of archives, combined with the model of StateLog")
p("C195", "Convolutional layers",
  "Conv computes, for every output position and feature, the sum of the kernel times the zero-padded, dilated input below it over the input features of its group, plus the bias. A batch is computed element by element, with the same exceptions as for single inputs. Strides and dilations that are not given, and empty strides, are one. 'SAME' pads both sides alike up to one entry and gives the input length divided by the stride rounded up, 'VALID' pads nothing. Inputs moved by whole strides give outputs moved alike. ConvTranspose is Conv with stride one of the input dilated by the strides, its output has the input length times the stride for 'SAME', which pads both sides alike up to one entry and is the same as 'VALID' if no dilated kernel is longer than the stride, and it is the adjoint of Conv for 'VALID'.",
  "all shapes, any number of spatial dimensions (ConvTranspose: up to three), all kernels and inputs",
  "tests check the shapes of a few layers",
  ["netket/nn/linear.py:249-302", "netket/nn/linear.py:341-386"],
  "model of the two layers with conv_general_dilated and conv_transpose of jax.lax on arrays of any shape")
p("C196", "Buffers of BoseHubbard",
  "BoseHubbard keeps two arrays into which get_conn and get_conn_flattened write. Whatever was called before on an object and whatever the arrays contain, no call writes outside of them. As long as the dtypes of the batches hold the occupation numbers, the results of get_conn and of get_conn_flattened (with and without padding) are the connected configurations, matrix elements and sections of the operator, with nothing left from earlier calls; padded rows have max_conn_size entries filled up with zeros.",
  "all graphs, parameters, histories of calls, batches, initial contents of the arrays",
  "tests call an operator once or on batches of one size and dtype; numba does not check bounds",
  ["netket/operator/_hamiltonian.py:498-500", "netket/operator/_hamiltonian.py:596-654", "netket/operator/_hamiltonian.py:656-744", "netket/operator/_hamiltonian.py:748-789"],
  "state machine of calls on the buffers")
p("C197", "Results of BoseHubbard and earlier calls",
  "The result of get_conn of BoseHubbard for a sample is the same whatever was called before on the object.",
  "all graphs, parameters, histories of calls, samples",
  "tests use one dtype",
  ["netket/operator/_hamiltonian.py:596-654", "netket/operator/_hamiltonian.py:770-774"],
  "refuted for the dtype and for occupations that the dtype of an earlier batch does not hold; the rest proved")
p("C198", "Hamiltonian rule: the operator sampled with",
  "The first time sampler.sample is called with HamiltonianRule and given static arguments (operator, machine, chain length, shapes), it proposes with the operator as it is at that time, whatever happened before to this and other operators. Later calls do so as long as the operator was not changed in place since; all proposals are then connected configurations of the operator. sampler.sample_next and HamiltonianRuleNumpy always use the operator as it is.",
  "all programs of in-place changes and samplings, any number of operators",
  "tests do not change an operator after it was given to a sampler",
  ["netket/sampler/base.py:455-489", "netket/sampler/rules/hamiltonian.py:66-103", "netket/operator/_hamiltonian.py:342-351", "netket/operator/_local_operator.py:872-905", "netket/sampler/rules/hamiltonian_numpy.py:71-84"],
  "state machine with the table of compiled chains")
p("C199", "Hamiltonian rule and operators changed in place",
  "sampler.sample with HamiltonianRule proposes connected configurations of the operator as it is when it is called.",
  "all programs of in-place changes and samplings",
  "tests do not change an operator after it was given to a sampler",
  ["netket/sampler/base.py:455-489", "netket/sampler/rules/hamiltonian.py:66-103", "netket/operator/_hamiltonian.py:230-246"],
  "refuted: all later calls with the same static arguments use the operator as it was at the first; the rest proved")
p("C200", "Attributes and iteration of histories",
  "A column of a History is an attribute of that name unless the class uses the name; other names are an AttributeError, in agreement with `in` and to_dict. iters and values are the time axis and the main column, get returns both, and iterating gives them in pairs, one for each iteration. to_dict has the time axis and all columns.",
  "all histories and names",
  "tests read a few attributes",
  ["netket/utils/history.py:157-163", "netket/utils/history.py:196-247"],
  "attribute lookup of python for the class")
p("C201", "Attributes and copies of histories: deviations",
  "A History can be copied, deep-copied and pickled. Every column is an attribute, and every history can be iterated and converted to an array.",
  "all histories, any recursion limit",
  "no test copies a history",
  ["netket/utils/history.py:157-163", "netket/utils/history.py:213-247"],
  "refuted for copies, names of the class and histories without main value")
p("C202", "Metropolis chains reach |psi|^pow",
  "With local moves on an unconstrained space (at least two local values), exchange moves over a connected cluster graph, or moves along a connected operator, every configuration (rearrangement, for exchange) is reached from every other one whatever the wavefunction, |psi|^machine_pow is the only stationary density, and the expected fractions of visits tend to it. If there are three or more local values or the modulus is not constant (local), a value occurs twice or the modulus is not constant (exchange), or the operator has a diagonal element, the law of the t-th sample tends to it for every n_sweeps > 0 and every start. For local moves with odd n_sweeps the fractions of samples tend to it for every wavefunction.",
  "all wavefunctions, powers, sizes, local values, cluster graphs, operators, starting configurations and numbers of sweeps",
  "tests compare a finite number of samples for a few machines, with statistical tolerances",
  ["netket/sampler/metropolis.py:304-351", "netket/sampler/rules/local.py:42-51", "netket/sampler/rules/local_numpy.py:34-56", "netket/sampler/rules/exchange.py:57-76", "netket/sampler/rules/hamiltonian.py:66-103"],
  "irreducibility, maximum principle, contraction of the spread, compactness for averages")
p("C203", "Metropolis samples that do not explore the space",
  "The samples of MetropolisLocal with the default n_sweeps, and of MetropolisExchange, reach every configuration of the space.",
  "all wavefunctions, sizes and numbers of sweeps",
  "tests use random parameters, whose modulus is not constant, and spaces of spins 1/2",
  ["netket/sampler/metropolis.py:268-270", "netket/sampler/metropolis.py:304-351", "netket/sampler/rules/local.py:42-51", "netket/sampler/rules/exchange.py:57-76"],
  "refuted: parity of up spins conserved for constant modulus and even n_sweeps, multiset of values conserved by exchange; exact condition proved for local moves")
p("C204", "Estimates from Metropolis samples converge to the exact values",
  "For MetropolisLocal, MetropolisExchange and MetropolisHamiltonian on the spaces where they explore, the average of any function over c chains with n samples each deviates in mean square from its mean with |psi|^machine_pow by at most A/(c n) + B/n^2 wherever the chains start (and by more than eps with at most that probability over eps^2). With machine_pow 2 and MetropolisLocal, the mean computed by the state for any LocalOperator, whatever the division of the samples over ranks, converges so to <psi|O|psi>/<psi|psi>, and the gradient of a Hermitian operator to the F with which 2 Re(conj(v) F) is the derivative of the energy in every direction v.",
  "all wavefunctions, operators, functions, parameters, starting configurations, numbers of chains, samples and sweeps, and divisions over ranks",
  "tests compare a finite number of samples with exact values for a few machines with statistical tolerances",
  ["netket/sampler/metropolis.py:304-351", "netket/operator/_local_values.py:1-100", "netket/stats/mpi_stats.py:40-62", "netket/vqs/mc_state.py:595-692"],
  "Poisson equation of the chain, second moments of the trajectories, composition with local values, stats.mean and the gradient")
p("C205", "Estimates from exact and autoregressive samples are unbiased",
  "With ExactSampler (weights |psi|^machine_pow) and ARDirectSampler (weights |psi|^2) the average of any function over all samples has the weighted mean as expected value and a mean-square error of exactly the weighted variance over the number of samples. For independent samples nk.stats.var with ddof has, on every rank and for every division of the N samples into equal shards, the expected value (N-1)/(N-ddof) times the variance, so the variance in Stats is too small by 1 - 1/N.",
  "all wavefunctions, networks, functions, powers, numbers of chains and samples, and divisions over ranks",
  "tests compare a finite number of samples for a few machines with statistical tolerances",
  ["netket/sampler/exact.py:63-157", "netket/sampler/autoreg.py:96-136", "netket/stats/mpi_stats.py:40-122"],
  "expected value over product measures, probabilities of draws from C49 and C51, variance identity")
p("C206", "Legacy jax machines: amplitudes, density matrices, derivatives, parameters and the S matrix",
  "exp(log_val) of JaxRbm is the product of cosh(W s + b) (real parameters: always; complex: if no hidden input is nonzero and purely imaginary), JaxRbmSpinPhase has modulus and phase from two such networks, the network of MPSPeriodic is the trace of the product of the matrices selected by the local states, invariant under translation by symperiod; uneven local states and periods that do not divide are refused. NdmSpin is hermitian with positive diagonal for all parameters, and NdmSpin and NdmSpinPhase (with hidden biases) are positive semidefinite on families of configurations without purely imaginary hidden inputs. vector_jacobian_prod is sum conj(J) v, or its conjugate. numpy_unflatten inverts numpy_flatten; the setter refuses other sizes. mat_vec of the legacy SR is the covariance of the derivatives plus the shift (on the fly: holomorphic machines and real ones; from stored derivatives: all), over all processes.",
  "all parameters, configurations, sizes, families of configurations, vectors, samples and numbers of processes",
  "the tests of the legacy machines compare numerical derivatives for a few random machines",
  ["netket/legacy/machine/jax.py:60-517", "netket/legacy/machine/_jax_utils.py:29-191", "netket/legacy/machine/density_matrix/jax.py:24-446", "netket/legacy/optimizer/jax/_sr_onthefly.py:67-170", "netket/legacy/optimizer/jax/stochastic_reconfiguration.py:16-185"],
  "products of cosh kernels are Gram kernels; traces are cyclic; jax's convention for vector-Jacobian products")
p("C207", "Legacy jax machines: documented behaviour of the remaining cases",
  "Every hidden unit contributes the cosh of its input. NdmSpin without hidden biases is positive semidefinite, and NdmSpinPhase without hidden biases can be evaluated. The amplitude of MPSPeriodic is the trace of the documented product. vector_jacobian_prod returns the same product with and without return_jacobian. SR on the fly solves the equation with the covariance matrix for all machines, as SR from stored derivatives does. The real and imaginary weights of DenseReal are drawn independently. The solver names listed by SR are accepted. numpy_unflatten refuses vectors of a wrong length.",
  "all parameters, configurations, sizes, vectors, samples, keys and initialisers",
  "the tests use hidden biases, holomorphic machines and the default options",
  ["netket/legacy/machine/jax.py:168-203", "netket/legacy/machine/jax.py:265-302", "netket/legacy/machine/jax.py:321-323", "netket/legacy/machine/jax.py:436-481", "netket/legacy/machine/density_matrix/jax.py:254-302", "netket/legacy/optimizer/jax/_sr_onthefly.py:88-141", "netket/legacy/optimizer/jax/stochastic_reconfiguration.py:150-167"],
  "for each clause the value which the code has instead, for all inputs")
p("C208", "Legacy CustomSampler kernel: accepted operators, proposals and stationary distribution",
  "The kernel of the legacy custom sampler accepts exactly the operators all of whose matrices are symmetric and stochastic, with one non-negative weight for each of at least one matrix; otherwise it raises AssertionError for the matrices and ValueError for the weights. Every call of transition proposes, for each row independently, configuration y from x with probability sum_k (w_k / sum w) <x|O_k|y>, using the two random numbers of that row, independently of the sizes and contents of earlier calls; the corrections are zero. The proposals are symmetric, and the Metropolis chain built on them leaves the target distribution stationary.",
  "all Hilbert spaces, operators without constant, weights, batches, sequences of calls and random numbers",
  "the tests sample two fixed move operators and compare histograms",
  ["netket/legacy/sampler/numpy/custom_kernel.py", "netket/operator/_local_operator.py"],
  "the kernel is related to the rule of the new sampler (C140); the buffers are overwritten before they are read")
p("C209", "Legacy CustomSampler kernel: arrays of the caller, constants and equal supports",
  "The array of weights passed by the caller is not changed, nor is any other array. Operators with a constant are refused or act as documented. Move operators given as a list of symmetric stochastic matrices are accepted also if two of them act on the same sites.",
  "all weights, operators, constants and pairs of matrices on the same site",
  "the tests use lists of weights and operators with disjoint supports",
  ["netket/legacy/sampler/numpy/custom_kernel.py", "netket/operator/_local_operator.py"],
  "for each clause the value which the code has instead, for all inputs")
p("C210", "Legacy torch machine: parameters, derivatives and vector-Jacobian products",
  "Assigning n_par numbers to parameters and reading them gives their real parts and leaves the frozen tensors and all shapes unchanged; any other number of values raises ValueError and changes nothing. der_log returns the derivatives of log_val with respect to the parameters, with and without BackPACK. vector_jacobian_prod returns sum_n vec_n conj(d log psi(x_n)), or its conjugate, whether or not the Jacobian is asked for and whatever gradients were left in the module. log_val of a batch has one entry per configuration.",
  "all modules with differentiable outputs, frozen tensors, parameters, batches and vectors",
  "the tests compare finite differences of a few random networks",
  ["netket/legacy/machine/torch.py"],
  "induction over the tensors; linearity of the backward pass")
p("C211", "Legacy torch machine: log_val of a vector and TorchLogCosh",
  "log_val of a single configuration is a number, as AbstractMachine documents, and TorchLogCosh computes log cosh.",
  "all modules, parameters, configurations and arguments",
  "the tests of the torch machine only check batches, and constants in log psi do not change the sampled distribution",
  ["netket/legacy/machine/torch.py", "netket/legacy/machine/abstract_machine.py:27-29"],
  "for each clause the value which the code has instead, for all inputs")
p("C212", "numba4jax: results of numba functions called from jax",
  "For a numba function which fills its outputs and leaves its inputs, as documented, the function returned by numba_to_jax and njit4jax returns these results outside of jit and, with one to four inputs and outputs, compiled for the CPU, whatever the allocated memory contained: one array if one shape was declared, else the collection. On the GPU it raises RuntimeError. vmap along the first axes of all arguments gives, for functions with as many outputs as inputs, the results for the rows.",
  "all numba functions fulfilling the contract, shapes, arrays, contents of memory and batch sizes",
  "the tests only use the Hamiltonian rule, whose function has fixed arguments and is never batched",
  ["netket/jax/numba4jax.py"],
  "arrays with explicit shapes; the loop of lax.map by induction")
p("C213", "numba4jax: compiled functions with many arguments, and batching",
  "Every function that works outside of jit can be compiled. vmap along the first axes works for all functions, in particular for the documented example with three inputs and two outputs and for functions returning one array. Arguments that are not mapped are passed whole, and other axes than the first can be mapped.",
  "all numba functions fulfilling the contract, shapes, arrays and batch sizes",
  "no test calls vmap on such a function",
  ["netket/jax/numba4jax.py:69-73", "netket/jax/numba4jax.py:120-124", "netket/jax/numba4jax.py:168-218", "netket/jax/numba4jax.py:283-298"],
  "for each clause what the code does instead, for all inputs")
p("C214", "MCState: construction from models of any framework, functions, variables and seeds",
  "MCState uses the functions of a flax model, of a pair of functions with two arguments each, of a haiku model, of any other object with init and apply, or the functions given. The variables are those given, otherwise those made by the initialiser from the key of seed; the sampler starts from these with sampler_seed, or with the second part of the split key of seed. Nothing is drawn at random if seed is given. Missing functions, missing variables without initialiser, and two values for one number are ValueErrors. init replaces the variables and drops the samples, and raises RuntimeError without initialiser. Wrapped models refuse mutable.",
  "all models, functions, variables, seeds, samplers, numbers of samples and processes",
  "the tests construct states of a few flax models with fixed seeds",
  ["netket/vqs/mc_state.py:104-255", "netket/utils/model_frameworks/base.py", "netket/utils/model_frameworks/jax.py", "netket/utils/model_frameworks/haiku.py", "netket/utils/model_frameworks/flax.py"],
  "case analysis over the kinds of models, composed with the model of the setters (C48, C56)")
p("C215", "MCState: documented arguments and frameworks",
  "init_fun and apply_fun replace the methods of the model they are given with. A model of no known framework is used as it is. Loading a stored state into a state with a haiku model restores the stored parameters.",
  "all models, functions, arguments and stored states",
  "the tests never combine a model with functions, and haiku is an optional dependency",
  ["netket/vqs/mc_state.py:122-186", "netket/utils/model_frameworks/base.py:80-85", "netket/utils/model_frameworks/haiku.py:65-73", "netket/utils/model_frameworks/haiku.py:94-112"],
  "for each clause what the code does instead, for all inputs")
p("C216", "struct.dataclass: construction, inheritance, copies, hashes and pytrees",
  "The constructor of a netket dataclass takes the fields of the bases first, in order, each once, and follows the rules of python calls; wrong calls are TypeErrors. Arguments are preprocessed by the __pre_init__ of the most derived class that has one, which is given that of its bases. replace makes an object with the given fields changed, the others as before and all caches and the hash cleared. flatten and unflatten give the object again. The hash is that of the fields whatever was done before. A cached property has the value of the method of the most derived class, computed once; precomputing fills all caches, own and inherited.",
  "all classes (chains of decorated classes with distinct names), arguments, objects reachable by any sequence of operations, and methods",
  "the tests define a handful of classes",
  ["netket/utils/struct/dataclass.py", "netket/utils/array.py", "netket/utils/group/_point_group.py"],
  "classes as lists of levels; invariants over the operations on objects")
p("C217", "struct.dataclass: cached properties with super, positional arguments, replace of PGSymmetry",
  "A cached property may use the cached property of the same name of its base through super. A call with too many positional arguments is a TypeError. replace works for every dataclass, in particular for PGSymmetry.",
  "all classes, objects, arguments and updates",
  "no test overrides a cached property with super, passes too many arguments, or replaces fields of a symmetry",
  ["netket/utils/struct/dataclass.py:106-129", "netket/utils/struct/dataclass.py:218-232", "netket/utils/group/_point_group.py:40-80"],
  "for each clause what the code does instead, for all inputs")
p("C218", "expect and expect_and_grad: the statistics are those of the chains",
  "With samples of T steps of C chains per rank, expect returns the statistics of the C time series of local values (for Squared operators of their absolute values squared) of all ranks. expect_and_grad returns the same statistics for Hermitian operators and, with experimental features, for other operators and for squares of operators. Mixed states return the statistics along the chains of the diagonal for operators on the physical space. R_hat is sqrt((T-1)/T + variance of the averages of the chains / variance of all samples); with at least 32 chains the error is that of the averages of the chains. Operators on another space give NotImplemented.",
  "all samples, numbers of steps, chains and ranks, and local values",
  "a wrong order of the axes gives the same mean and variance; tests only look at these",
  ["netket/vqs/mc_state.py:448-558", "netket/vqs/mc_state.py:601-694", "netket/vqs/mc_state.py:698-761", "netket/vqs/mc_mixed_state.py:263-288", "netket/jax/_expect.py"],
  "reshape and transpose as list functions, composed with the theorems about statistics (C54, C81)")
p("C219", "Statistics of squared superoperators, of is_hermitian=False, of jax.expect, and gradients of mixed states",
  "expect_and_grad of the square of a superoperator (Lindbladian) returns the statistics of expect. expect_and_grad(Squared(O), is_hermitian=False) returns the statistics of Squared(O). jax.expect(..., n_chains=n) returns the statistics of n chains. expect_and_grad of a mixed state works for operators on the physical space, as expect does.",
  "all samples, numbers of steps, chains and ranks, local values and operators",
  "tests compare mean and variance only, and never differentiate expectation values of physical operators",
  ["netket/vqs/mc_state.py:497-552", "netket/vqs/mc_state.py:764-847", "netket/jax/_expect.py:46-58", "netket/vqs/base.py:254-270", "netket/vqs/mc_mixed_state.py:263-288"],
  "for each clause what the code does instead, for all inputs; permutation invariance of mean and variance")
p("C220", "Eigenstates have zero variance and zero gradient, and energies lie above the ground state",
  "If the variational state is an eigenvector of the operator, all local values equal the eigenvalue on every batch of configurations (and only then), so for all samples, numbers of chains and ranks expect and expect_and_grad report the eigenvalue as mean with zero variance (error and R_hat are NaN), Squared operators the absolute value squared (zero for stationary states of a Lindbladian), the gradient is zero, and every solution of the stochastic reconfiguration with positive diagonal shift is zero: the optimisation stays where it is. The expectation value of a Hermitian operator is real and never below the lowest eigenvalue, and equals it precisely for ground states.",
  "all local operators, spaces, states, samples, ranks, Jacobians and diagonal shifts",
  "ground states are only reached approximately in tests",
  ["netket/operator/_local_values.py", "netket/vqs/mc_state.py:448-558", "netket/vqs/mc_state.py:601-694", "netket/optimizer/qgt/qgt_onthefly_logic.py"],
  "composition of C93, C218, C59 and C65; positive semidefinite matrices for the variational principle")
p("C221", "What a run reports to its loggers",
  "driver.run(n_iter, out, obs, step_size, callback): on rank 0, for containers of loggers and callbacks and a dictionary of observables, every logger is called once per turn, in order, with the step count, the state and the log data of that turn; the log data hold every observable under its name and the loss under its own, then go through the callbacks in order before any logger sees them; the turn in which a callback (or another rank) asks to stop is still logged; afterwards every logger is flushed with the final state. Loggers do not influence the optimisation; other ranks touch no logger. An exception of a logger or callback ends the run at once: earlier loggers have the entry of the turn, later ones do not, nothing is flushed, the parameters are not updated any more. With a JsonLog the log file holds the data accumulated over all turns on top of those of earlier runs, the parameter file the final parameters; with out=<str> previous files are overwritten.",
  "all drivers (gradient and update functions), observables, losses, callbacks (incl. raising ones and ones which change the log data), flags of other ranks, lists of loggers of any kind, n_iter, step_size > 0, start step, clock readings, contents of existing files",
  "tests run a few steps with one logger and look at the number of entries; the interplay of stopping, exceptions, callbacks which edit the data, several loggers, existing files and clock readings is not explored",
  ["netket/driver/abstract_variational_driver.py:183-289", "netket/driver/abstract_variational_driver.py:291-303", "netket/logging/json_log.py:149-208"],
  "a state machine of the run with arbitrary loggers; induction over the turns; instance with the JsonLog model")
p("C222", "Iterables accepted by run (deviations)",
  "run accepts, as documented, any iterable of loggers, any iterable of callbacks and any iterable of observables, and reports every observable. The code: observables in a list make the first turn raise TypeError; loggers in an iterator receive the first turn only and are never flushed; callbacks in an iterator make the first turn raise TypeError; an observable with the name of the loss is replaced by the loss.",
  "all drivers with a loss, all lists of observables, all iterators of loggers or callbacks, all n_iter > 0, step_size > 0",
  "tests pass lists, tuples and dictionaries with other names",
  ["netket/driver/abstract_variational_driver.py:28-40", "netket/driver/abstract_variational_driver.py:206-209", "netket/driver/abstract_variational_driver.py:254-271"],
  "same model; the iterator is used up after the first loop")
p("C223", "The trajectories of the optimizers",
  "n updates of a driver with Sgd(lr) subtract lr times the sum of the gradients. Momentum(lr, beta): every update is -lr times the sum of all gradients so far damped by beta per step (with nesterov the newest gradient is added to beta times this sum), which is the documented moving average with learning rate lr/(1-beta). AdaGrad: the gradient divided by the root of the initial accumulator plus all squared gradients (the newest included) plus epsilon, never more than lr. RmsProp: the gradient divided by the root of the moving average of squared gradients plus epsilon, minus the squared moving average if centered; the radicand is always positive and no update exceeds lr/sqrt(1-beta). Adam: the first update is lr g/(|g|+eps), and every update is for constant gradients.",
  "all gradient sequences, numbers of updates, initial parameters, learning rates, decay rates in [0,1), cutoffs > 0",
  "tests run a few steps of one optimizer on a model and compare energies; closed forms over all sequences are not tested",
  ["netket/optimizer/__init__.py:31-186", "netket/driver/abstract_variational_driver.py:305-325"],
  "optax transformations on one real parameter; induction over the number of updates")
p("C224", "Documented update rules of the optimizers (deviations)",
  "the docstrings of Momentum, AdaGrad and RmsProp give the update rules. The code: Momentum does not multiply the gradient by 1-beta; AdaGrad's accumulator starts at 0.1 by default instead of zero; RmsProp's cutoff is inside the root.",
  "all learning rates, decay rates, cutoffs and gradients other than zero",
  "no test compares with the documented formulas",
  ["netket/optimizer/__init__.py:61-88", "netket/optimizer/__init__.py:91-129", "netket/optimizer/__init__.py:147-184"],
  "first update compared with the documented one")
p("C225", "Expectation values on mixed states are physical",
  "for an operator on a mixed state: the local values at all configurations, averaged with the diagonal of the density matrix as weights, are Tr(O rho)/Tr rho; for Hermitian operators and positive semidefinite density matrices this number is real and lies between the lowest and highest eigenvalue; for rho = psi psi^dagger it is the expectation value on the pure state; the density matrix of an NDM with real parameters is positive semidefinite on every space, so this holds for every NDM.",
  "all finite spaces, all operators built by the API, all log-amplitudes, all real NDM parameters, all Hermitian matrices",
  "tests compare sampled expectation values with exact ones for one small system",
  ["netket/vqs/mc_mixed_state.py", "netket/operator/_local_values.py", "netket/models/ndm.py"],
  "composition of C93 and C63 with positive semidefinite matrices")
p("C226", "The steady-state cost is the norm of the Lindblad equation's right-hand side",
  "for a Lindbladian built from a Hermitian Hamiltonian and jump operators, the squared absolute local values computed from the connected elements of get_conn_flattened, averaged over all pairs of configurations with weights |rho|^2, are ||L rho||^2/||rho||^2; the cost is never negative and is zero precisely when rho is stationary.",
  "all finite local spaces, all Hermitian Hamiltonians and all jump operators built by the API, all log-amplitudes",
  "tests minimise the cost for one small dissipative chain and compare with a threshold",
  ["netket/driver/steady_state.py", "netket/vqs/mc_mixed_state.py", "netket/operator/_local_liouvillian.py"],
  "composition of C23 with the norm over all matrix elements")
p("C227", "Hamiltonians on a graph have the symmetries of the graph",
  "for every node permutation listed by graph.automorphisms() the matrix elements returned by get_conn of Ising, BoseHubbard, Heisenberg (with and without sign rule) and GraphOperator (equal local spaces, colour-preserving automorphisms, bond operators that do not distinguish their two sites) satisfy H(x[p], x'[p]) = H(x, x'); Ising and Heisenberg are unchanged by flipping all spins and Heisenberg conserves the magnetisation; a GraphOperator with an asymmetric bond operator need not have the symmetry; local_values of a symmetric wave function are equal on relabelled configurations.",
  "all numbers of sites, all graphs without repeated edges, all their automorphisms, all couplings, all configurations",
  "tests check a few hamiltonians on small chains and never compare with the automorphisms",
  ["netket/operator/_hamiltonian.py", "netket/operator/_graph_operator.py", "netket/graph/graph.py"],
  "composition of C21, C22, C25, C93 and C169")
p("C228", "The sign rule of Heisenberg is a change of basis that makes the matrix stoquastic",
  "on a bipartite graph Heisenberg(sign_rule=True or None) is Heisenberg(sign_rule=False) conjugated with the diagonal sign given by the product of the spins of one sublattice; with J >= 0 its off-diagonal elements are at most zero, negative exactly between configurations differing by an exchange on an edge; without the rule the operator commutes with every operator applying one matrix to all spins; the documented description (flip of Sz on every odd site) does hold.",
  "all graphs with a two-colouring of their nodes, all couplings, all configurations",
  "tests compare energies of one small lattice",
  ["netket/operator/_hamiltonian.py:357-438"],
  "composition of C25 with the permutation form of the bond")
p("C229", "Exact diagonalisation: lanczos_ed and full_ed agree, are ordered, and bound variational energies",
  "for a Hermitian operator and 0 < k < number of states, lanczos_ed returns the k lowest eigenvalues with multiplicities in increasing order, the same with and without compute_eigenvectors, with and without matrix_free and whatever scipy_args; they are the first k of those of full_ed, which are all eigenvalues; with compute_eigenvectors the columns are orthonormal eigenvectors in the same order; the first eigenvalue is a lower bound of the expectation value in every state, reached exactly by its eigenvectors; errors are passed on.",
  "all Hermitian operators on finite spaces, all k, all keyword dictionaries, all states; the libraries' documented behaviour is a hypothesis (shown satisfiable)",
  "tests diagonalise one small chain",
  ["netket/exact.py:23-117", "netket/operator/_abstract_operator.py:296-297"],
  "model of the keyword handling and of the reversal of the order; spectral theorem and C220 for the bound")
p("C230", "The iterative steady_state returns a stationary state of trace one",
  "steady_state(method='iterative') starts from rho0 with its trace appended, or from the projector on the first state; if bicgstab returns a solution of the equations it is given, the matrix returned has trace one and the Lindblad generator vanishes on it, so it is the steady state if that is unique; the number info does not matter; a rho0 of the wrong size and an unknown method are ValueErrors.",
  "all local spaces, Hamiltonians, jump operators, starting matrices and solver results",
  "tests compare with one small model within a tolerance",
  ["netket/exact.py:120-223", "netket/operator/_local_liouvillian.py:366-443"],
  "model of the vectors handed to the solver, composed with C79")
p("C231", "The SR update is the best approximation of an imaginary-time step",
  "Let dp solve the linear system SR builds (quantum geometric tensor of the samples plus diag_shift, right-hand side the gradient of expect_and_grad). For every change v of the parameters (real on real leaves) consider the mean squared distance, over the samples, between the centred change of the log-amplitudes along v and the centred local energies, plus diag_shift times |v|². Then dp has the least such misfit; the misfit of v exceeds it by exactly the squared distance of v and dp in the metric of the shifted tensor; for diag_shift > 0 dp is the only minimiser; conversely a minimiser solves the system along every admissible direction.",
  "all numbers of samples and parameters, all partitions of the samples over devices, all mixtures of real leaves and leaves with holomorphic dependence, all local energies, all shifts",
  "tests compare tensors and solvers numerically on random small networks; the relation between the right-hand side and the left-hand side is never tested",
  ["netket/vqs/mc_state.py: grad_expect_hermitian", "netket/optimizer/qgt/qgt_onthefly_logic.py:28-95", "netket/optimizer/preconditioner.py"],
  "combine the model of the gradient (C59) with the quadratic form of the tensor (C65): completing the square")
p("C232", "Operators that respect a constraint work on the constrained space",
  "If every local matrix given to LocalOperator connects configurations satisfying a constraint only with such configurations, then get_conn of an allowed configuration returns allowed configurations only (also after matrices on equal sites were merged and sites reordered), to_sparse and to_dense on the constrained space succeed, their entries are the elements of the operator between allowed states, and products with vectors are products with this matrix. In particular Heisenberg, with any sign rule and graph, keeps the magnetisation, and on Spin(s=1/2, N, total_sz) its matrix is the block of the Hamiltonian.",
  "all local spaces, matrices, supports, constraints, graphs, couplings, magnetisations",
  "tests use one or two chains with total_sz=0",
  ["netket/operator/_local_operator.py:198-269", "netket/operator/_local_operator.py:509-711", "netket/operator/_abstract_operator.py:235-270", "netket/operator/_hamiltonian.py:370-420", "netket/hilbert/spin.py:54-107"],
  "invariant of the stored terms through the constructor; then C19 on the constrained index")
p("C233", "Hiding submodules only renames them",
  "_hide_submodules gives every public attribute of a package that has the name of one of its python files (and is not in ignore) the name with an underscore, keeps the values of all other public attributes, removes itself when asked to, and raises nothing; the order of os.listdir and a second call do not matter. dir() of a module treated by hide_unexported lists the names decorated with export in order. netket.optim.X and netket.variational.X are the public attributes of the new modules; other names raise AttributeError.",
  "all packages, attributes, directory listings, ignore lists",
  "the result depends on the file system and on import order",
  ["netket/utils/moduletools.py:18-89", "netket/optim.py:24-39", "netket/variational.py:24-39"],
  "closed form of the attributes after the loop by induction over the files")
p("C234", "Hiding submodules loses nothing",
  "After _hide_submodules every object that was an attribute of the package can still be reached, under its name or with an underscore; dir() works after hide_unexported, and every name listed by dir(netket.optim) can be used.",
  "all packages and listings",
  "needs a clash of names",
  ["netket/utils/moduletools.py:18-89", "netket/optim.py:27-39"],
  "counterexample with a.py and _a.py; the part without clashes")
p("C235", "The log-pdf of a sampler is the power of the amplitude",
  "exp of sampler.log_pdf(model)(pars, σ) is |exp(model(pars, σ))|**machine_pow. Log-pdfs of samplers with equal power compare equal, with equal hash, exactly for the same model; a jitted function given them as static arguments returns the right value at every call.",
  "all models, parameters, configurations, powers, sequences of calls",
  "compilation caches depend on the history of calls",
  ["netket/sampler/base.py:160-178", "netket/jax/utils.py:269-295"],
  "explicit cache keyed by the equality of HashablePartial; invariant of the cache")
p("C236", "Log-pdfs that compare equal are the same function",
  "If sampler1.log_pdf(model) == sampler2.log_pdf(model) then both are the same function, and a jitted function given the second as a static argument evaluates the second.",
  "all samplers and models",
  "needs two samplers with different machine_pow in one process",
  ["netket/sampler/base.py:160-178", "netket/jax/utils.py:281-287"],
  "the closure of the lambda is not compared: counterexample for all models whose modulus is not one")
p("C237", "Flat updates of the legacy SR get the shapes of the parameters",
  "jax_shape_for_update distributes an update with as many entries as there are parameters over arrays with the shapes of the parameters, in order, every entry once; it inverts the concatenation of a tree; an update that is too short raises TypeError.",
  "all trees of shapes, all updates",
  "all shapes",
  ["netket/legacy/vmc_common.py:112-135", "netket/legacy/optimizer/jax/stochastic_reconfiguration.py:245"],
  "induction over the leaves with the running position")
p("C238", "Updates of the wrong length are rejected",
  "jax_shape_for_update raises if the number of entries of the update is not the number of parameters.",
  "all trees of shapes, all updates",
  "silent truncation is not an error in the tests",
  ["netket/legacy/vmc_common.py:112-135"],
  "counterexample: surplus entries are dropped")
p("C239", "Ising and BoseHubbard as matrices, also with a fixed number of particles",
  "to_sparse and to_dense of Ising on Spin(1/2, N) and of BoseHubbard on Fock(n_max, N) succeed; their entries are those of the documented Hamiltonians, the matrices are symmetric, products with vectors are products with them. On Fock(n_max, N, n_particles) the matrix of BoseHubbard is the block with this number of particles, and the documented Hamiltonian has no elements between different numbers.",
  "all graphs without self loops, couplings, cut-offs, numbers of sites and particles",
  "tests compare small chains",
  ["netket/operator/_hamiltonian.py:250-304", "netket/operator/_hamiltonian.py:596-735", "netket/operator/_abstract_operator.py:235-270", "netket/hilbert/fock.py:40-100"],
  "row-wise kernels (C18, C21, C22) through C19 on the indexed space")
p("C240", "Diagnostic tools report what the system says",
  "available_cpus on Linux returns the number of elements of the set whose mask /proc/self/status lists (None for the empty set), however the digits are grouped and whatever surrounds the line; elsewhere the number of multiprocessing. cpu_info on Linux returns the last value of every name of the first block of /proc/cpuinfo under its translated name, the words of the line flags (with sse3 for pni), and AVX and AVX2 exactly when listed. get_link_flags returns the words beginning with -L in order; get_global_mpi_info the commands found. printfmt puts values in the same column at every indentation and check_mpi in the same column of every row, on rank 0 only; _jax_backends lists the backends with devices in order. strip and split remove exactly the white space.",
  "all texts of the files and outputs of commands, all sets of CPUs, all names, values and indentations that fit",
  "the tools are not tested, and depend on the machine",
  ["netket/tools/_cpu_info.py:9-32", "netket/tools/_cpu_info.py:52-115", "netket/tools/_common.py:5-48", "netket/tools/_mpi_info.py:6-37", "netket/tools/info.py:27-39", "netket/tools/info.py:142-153", "netket/tools/check_mpi.py:20-57"],
  "texts as lists of characters; parse of rendered texts")
p("C241", "Diagnostic tools work on every supported system",
  "available_cpus always detects a number; exec_in_terminal strips only the last newline; cpu_info works for processors without a line flags; on macOS AVX and AVX2 are reported when sysctl lists them; printfmt prints at every indentation.",
  "all texts of the files and outputs of commands, all indentations",
  "the tools are not tested, and depend on the machine",
  ["netket/tools/_cpu_info.py:9-32", "netket/tools/_cpu_info.py:61-115", "netket/tools/_common.py:5-12", "netket/tools/info.py:27-39"],
  "witnesses, and exact conditions")
p("C242", "Deprecated names act like their replacements",
  "A function wrapped by deprecated or deprecated_new_name issues one FutureWarning naming it (and its reason) and then has exactly the result, the effects and the warnings of the function; where the warning is an error the function is not called. For every lattice whose sites are all nodes: site_to_vector(i) and atom_label(i) are the cell and the label of site i, vector_to_site of the cell is its first site (i only for label 0), vector_to_coord and site_to_coord are the position of site i; negative numbers count from the end, others raise IndexError, vectors outside InvalidSiteError. Hilbert spaces with graph= have one site per node, a graph with N other than 1 is a ValueError; Boson is Fock. SRLazyCG and SRLazyGMRES without solver options give the on-the-fly tensor, the shift and the solver.",
  "all functions, arguments, states, warning filters; all lattices as in C34; all shifts and keyword arguments",
  "old names are tested for a few values only, and never with warnings as errors",
  ["netket/utils/deprecation.py:22-72", "netket/graph/lattice.py:147-156", "netket/graph/lattice.py:727-766", "netket/hilbert/_deprecations.py:19-43", "netket/hilbert/fock.py:204-220", "netket/optimizer/sr/deprecations.py:25-78"],
  "calls as functions of filter and state; C34 for the numbering")
p("C243", "Deprecated names keep their documented arguments",
  "Only one of N and graph is accepted; SRLazyCG and SRLazyGMRES accept the options of the solvers; the warnings of the old activation functions name the function to use.",
  "all arguments",
  "the old names with options are not tested",
  ["netket/hilbert/_deprecations.py:19-43", "netket/optimizer/sr/deprecations.py:25-78", "netket/optimizer/sr/api.py:71-135", "netket/nn/activation.py:64-81"],
  "witnesses, and exact conditions")
p("C244", "Legacy samplers on JAX sample from |psi|^machine_pow",
  "generate_samples(n) for n > 0 returns n arrays with one row per chain; each is sweep_size moves after the one before, where every chain goes to its proposal if and only if its uniform number is below the ratio of |psi|^machine_pow, with a key of its own; the last one becomes the present state, and next(sampler) is one such sample. Local proposals change exactly one site to another local state, each equally often; exchange proposals exchange the values of one cluster and are their own inverses; any number of such moves satisfies detailed balance for |psi|^machine_pow and leaves it stationary. The constructor and reset(True) of the local sampler give n_chains configurations of local states, drawn with different keys; defaults are machine_pow 2 and one sweep per site; negative numbers are ValueErrors. For JAX machines local and exchange samplers exist, for other machines all.",
  "all generators, kernels, log-amplitudes, powers, numbers of samples, chains and moves, keys, local states, clusters",
  "tests compare histograms of a few small machines up to statistical errors",
  ["netket/legacy/sampler/jax/metropolis_hastings.py:9-163", "netket/legacy/sampler/jax/local_kernel.py:4-27", "netket/legacy/sampler/jax/exchange_kernel.py:5-26", "netket/legacy/sampler/jax/__init__.py:6-41", "netket/legacy/sampler/_kernels.py:7-25", "netket/legacy/sampler/metropolis_hastings.py:5-77"],
  "inductive relation of moves and samples; C44 and C175 for stationarity")
p("C245", "Legacy samplers on JAX: documented arguments and resets",
  "reset(init_random=True) gives random states; n_chains can be set; generate_samples resets when asked to and returns an array; sweep_size must be positive; all samplers exist for every machine.",
  "all generators, states and numbers",
  "the setters and repeated resets are not tested",
  ["netket/legacy/sampler/jax/metropolis_hastings.py:89-148", "netket/legacy/sampler/jax/exchange_kernel.py:25-26", "netket/legacy/sampler/jax/__init__.py:6-41"],
  "witnesses, and exact results")
p("C246", "The text of Stats shows mean, error and variance to the accuracy of the error",
  "repr(stats) is 'mean ± error [σ²=variance, R̂=R_hat]', and the parts can be read from it; R̂ is left out exactly when it is NaN and has four decimals otherwise. For an error above 1e-7 mean (also both parts of a complex mean), error and variance have the same number of decimals and differ from the true values by at most a 20th of the error; an error below 1 is written with two digits that are not leading zeros (three when it rounds up to a power of ten), one above 1 with one decimal. For smaller errors, and for those that are NaN or infinite, every number has four digits and a power of ten, and differs from the true value by at most a 2000th of it; NaN and infinities are written by name.",
  "all real, infinite and NaN means, errors, variances and R_hat",
  "all numbers; tests compare a few texts",
  ["netket/stats/mc_stats.py:34-49", "netket/stats/mc_stats.py:84-90", "netket/legacy/stats/mc_stats.py:10-23"],
  "Python's rounding of decimals defined from the exact value; a separate reader of numbers as specification")
p("C247", "The text of Stats shows the mean to the accuracy of the error, however small",
  "repr(stats) shows the mean up to its error.",
  "all means and errors",
  "errors below 1e-7 of large means are not tested",
  ["netket/stats/mc_stats.py:34-49"],
  "a witness")
p("C248", "What error bars, correlation times and R_hat mean",
  "nk.stats.statistics depends on the set of chains only, not on their order nor on how they are distributed over processes. For data a x + b with a != 0 the mean is a mean + b, the error is |a| times and the variance |a|^2 times the old one, and tau_corr and R_hat are unchanged. R_hat always lies between sqrt(1 - 1/C) and sqrt(2 - 1/C) for chains of C samples, so below sqrt 2. With at least batch_size chains 0 <= tau_corr <= (C - 1)/2 and error^2 <= variance/n_chains, and for independent equally distributed chains with any correlations inside, the expected squared error_of_mean is (1 - 1/n_chains) times the expected squared deviation of the mean from its true value.",
  "all complex data, chain numbers and lengths, batch sizes, distributions of finite chains, divisions over processes",
  "tests compare numbers for a few random data sets with tolerances",
  ["netket/stats/mc_stats.py:112-254", "netket/stats/mpi_stats.py:40-122"],
  "averages and variances of lists, expectation over products")
p("C249", "R_hat against the Gelman-Rubin ratio",
  "R_hat is the Gelman-Rubin ratio sqrt((C-1)/C + B/W), B the variance of the chain means and W the mean variance within the chains.",
  "all data with more than one chain and W != 0",
  "tests compare R_hat with its own formula",
  ["netket/stats/mc_stats.py:238-250"],
  "a witness")
p("C250", "Contents of JSON logs",
  "The .log file of JsonLog contains the logged data in full: histories of numbers appear under their names, with the structure of lists and dictionaries in which they were logged; every real or integer series is the list of its entries, every complex one the two lists real and imag. From the file the logged histories of finite numbers can be recovered. Complex numbers outside of histories become a pair real, imag, and arrays without dimensions a number.",
  "all nestings of histories (up to the depth orjson can serialise), all names, lengths, real, integer, boolean and complex series",
  "tests log a few real observables and look at some keys of the file",
  ["netket/logging/json_log.py:31-54", "netket/logging/json_log.py:174-183", "netket/utils/history.py:219-225"],
  "structural recursion on the data, injectivity of the encoding")
p("C251", "Every logged history can be written to a JSON log and read back",
  "Every history logged with JsonLog is written, also if the logged values are arrays, and can be read back with the values it has; a failure to write leaves the previous contents of the file.",
  "all histories",
  "tests log scalar observables only, without NaN",
  ["netket/logging/json_log.py:31-54", "netket/logging/json_log.py:174-183"],
  "witnesses for every column of two or more dimensions, NaN")
p("C252", "An update of VMC lowers the energy to first order",
  "If the samples represent the distribution of the state, the derivative of the energy along every change v of the (real or complex) parameters is 2 sum_k Re(conj(v_k) F_k), where F is the gradient returned by expect_and_grad. Hence, unless the gradient vanishes, the energy is strictly lower after one update for all sufficiently small learning rates: with Sgd, with SR and a positive diagonal shift for every solution of the linear system (at a rate of at least twice the shift times the squared norm of the solution), with AdaGrad and RmsProp in every state they can reach, and with Adam and Momentum in their first step.",
  "all finite bases, Hermitian operators, differentiable ansatzes, parameters, numbers and distributions of the samples over ranks, learning rates below a bound, hyperparameters in their ranges",
  "tests run a few optimisations and compare the final energy with a loose bound; that single updates descend is not checked",
  ["netket/vqs/mc_state.py:637-694", "netket/driver/vmc.py:121-146", "netket/driver/abstract_variational_driver.py:305-325", "netket/optimizer/__init__.py:31-184", "netket/optimizer/preconditioner.py"],
  "derivative of the Rayleigh quotient; covariance form of the gradient; positivity of the geometric tensor")
p("C253", "An update of SteadyState lowers the cost to first order",
  "On one process, if the samples represent |rho|^2, for real parameters and complex ones entering holomorphically, the derivative of the cost ||L rho||^2/||rho||^2 along every change v of the parameters is 2 sum_k Re(conj(v_k) F_k), where F is the gradient which expect_and_grad returns for the squared Lindbladian. Hence after one update of SteadyState with Sgd the cost is strictly lower for all sufficiently small learning rates, unless the gradient (its real part for real parameters) vanishes.",
  "all finite spaces, superoperators, ansatzes, real and complex parameters and sets of samples representing |rho|^2",
  "tests compare the gradient with finite differences for a few models within wide tolerances",
  ["netket/vqs/mc_state.py:764-848", "netket/operator/_der_local_values_jax.py:41-58", "netket/driver/steady_state.py"],
  "derivative of the quotient of two sums of squares; averages over samples")
p("C254", "An update of SteadyState lowers the cost on any number of processes",
  "The gradient of the squared Lindbladian and with it the update of SteadyState are the same however the samples are distributed over processes, and lower the cost for small learning rates.",
  "all distributions of the samples over processes",
  "tests run with one or two processes and do not look at the direction of single updates",
  ["netket/vqs/mc_state.py:764-848"],
  "witness: dephasing of one spin on four processes")
p("C255", "SR without shift does not depend on the parametrisation",
  "Without diagonal shift the change of the log-amplitudes at the samples (up to norm and phase, to first order) by an update of SR is the orthogonal projection of the local energies on the changes the ansatz can make. It is the same for all solutions of the linear system if the tensor is singular, and for all ansatzes which can make the same changes, whatever the number and kind of their parameters, in particular if parameters are rescaled. With a diagonal shift this is not so.",
  "all samples, local energies, numbers of real and holomorphic complex parameters, distributions over ranks, solutions",
  "tests solve well-conditioned systems in one parametrisation",
  ["netket/vqs/mc_state.py:637-694", "netket/optimizer/qgt/qgt_onthefly_logic.py:28-95", "netket/optimizer/preconditioner.py"],
  "the linear system is the normal equation of a projection")
p("C256", "Sums, differences, products and quotients with lazily transposed operators",
  "For concrete local operators and the wrappers A.T, A.H and A.H@A around them: p + q, p - q and p * q denote the sum, difference and product of the two matrices (A.H * A and A * A.H included, which stay lazy), p + c, c + p, p - c, c - p, c * p and p * c with a number c denote P + c, P - c, c - P and c P, and -p and p / c the negative and the quotient.",
  "every Hilbert space with sorted local states and one local dimension, all operators built through the API whose is_hermitian flag is right, every pair of concrete or wrapped operators, all numbers",
  "Tests add and multiply a few concrete operators; which reflected method Python picks for each combination of classes decides what is computed, and no test forms A - A.H.",
  ["netket/operator/_lazy.py:18-44", "netket/operator/_lazy.py:124-146", "netket/operator/_lazy.py:191-198", "netket/operator/_local_operator.py:320-425", "netket/operator/_local_operator.py:465-474"],
  "Model which method Python calls (Model/LazyArith.lean) on top of the concrete operations; reduce to C12, C13 and C16_collect; refute differences with a wrapper on the right.")
p("C257", "Adjoints, transposes, conjugates and squares of Ising, PauliStrings and LocalLiouvillian",
  "For an operator o of one of these classes: o.is_hermitian is True only if the matrix is hermitian; o.H exists and to_sparse() of it is the conjugate transpose; o.T exists, its to_sparse() is the transpose and o.T.T is o; o.conjugate() exists and is the conjugate; o @ o is the matrix product of o with itself and o.H @ o is O†O; collect() of the transpose and of the adjoint gives a concrete operator.",
  "all three classes, all parameters and dtypes, all Pauli strings and weights, all Liouvillians (any connected elements), all finite sets of configurations",
  "Tests of special Hamiltonians use real Python floats and hermitian Pauli strings only, so is_hermitian is never wrong and NotImplementedError paths are not taken.",
  ["netket/operator/_hamiltonian.py:112-180", "netket/operator/_abstract_operator.py:46-125", "netket/operator/_abstract_operator.py:313-328", "netket/operator/_lazy.py:47-202", "netket/operator/_pauli_strings.py:164-172", "netket/operator/_local_liouvillian.py:82-88"],
  "Model Obj/Expr (Model/SpecialLazy); entries read off the connected elements; use C20, C15 and C21 for the matrices of PauliStrings and Ising.")
p("C258", "Connectedness and bipartiteness of graphs, and what Heisenberg makes of them",
  "Graph.is_connected() of a graph with nodes is True exactly if there is a path between every two nodes, and then distances() has only finite, symmetric entries below n_nodes. Graph.is_bipartite() is True exactly if the nodes can be given two colours so that every edge connects different colours, and False exactly if there is a closed walk with an odd number of steps. A disjoint union is bipartite exactly if both graphs are and never connected if both have nodes. Heisenberg(sign_rule=True) raises ValueError exactly on graphs with an odd closed walk, and every operator Heisenberg returns is the operator without sign rule up to signs of the basis states.",
  "all graphs, all edges and colours, all couplings, all values of sign_rule",
  "Tests check is_bipartite of a few lattices of fixed size; the statements are about all graphs, all pairs of nodes and all walks.",
  ["netket/graph/graph.py:133-137", "netket/graph/graph.py:192-193", "netket/graph/graph.py:263-267", "netket/operator/_hamiltonian.py:362-426"],
  "Breadth-first search as for C169 (igraph), types alternating from the first node of each component; walks change the colour at every step; combine with C228 for Heisenberg.")
p("C259", "Which predefined lattices are connected and bipartite",
  "Grid(extent, pbc) with positive extents, at least one of them above 1 or periodic, is_connected(); it is_bipartite() exactly if every periodic direction has an even number of cells or a single cell. Hypercube, Chain, Square and Cube with length**n_dim sites are connected, and bipartite exactly if they are open or the length is even or 1. Triangular, Honeycomb, Kagome, BCC, FCC, Diamond and Pyrochlore are connected. Honeycomb and Diamond are bipartite for all extents and boundaries. BCC is bipartite if every periodic extent is even, and not if a periodic extent is odd and at least 3. Kagome and Pyrochlore never are, and Triangular and FCC are not once every extent is at least 2.",
  "all dimensions, extents and boundary conditions",
  "Tests look at a few grids of fixed size; the statement is about all extents in all dimensions, including the short periodic axes where the neighbours coincide.",
  ["netket/graph/lattice.py:281-331", "netket/graph/common_lattices.py:63-206", "netket/graph/common_lattices.py:209-436", "netket/graph/graph.py:133-137"],
  "Edges of the grid from C35; sum of the coordinates modulo 2 as colouring; a cycle around an odd axis; steps towards the origin connect every site; nearest-neighbour steps from C159 for the other lattices, with a triangle of sites where they are frustrated.")
p("C260", "What the masked layers compute",
  "MaskedDense1D gives at site t the bias plus the sum of the features of all earlier sites (and of t, unless exclusive) times the kernel. MaskedConv1D gives the bias plus the kernel times the inputs at t, t - dilation, t - 2 dilation, ... (starting one dilation earlier if exclusive), last kernel entry first, with zeros outside of the chain, for the input features of the group. MaskedConv2D adds kernel entry (a, b) times the site h-1-a dilations above and b - w//2 dilations to the right exactly if this is a site of the lattice that comes before the output site in the order of the rows (or is the site itself, unless exclusive).",
  "all shapes, kernels, dilations, groups and inputs over any commutative semiring",
  "Tests check on which inputs the outputs depend for a few sizes (a layer that drops inputs it may use passes them), not the values.",
  ["netket/nn/masked_linear.py:38-110", "netket/nn/masked_linear.py:144-214", "netket/nn/masked_linear.py:250-328"],
  "Sums over the flattened input split into sites; sum over the kernel reflected; the mask of the last row against the order of the sites.")
if __name__ == "__main__":
    import json, os
    root = os.path.dirname(os.path.dirname(os.path.abspath(__file__)))
    with open(os.path.join(root, "properties.jsonl"), "w") as f:
        for q in P:
            f.write(json.dumps({k: q[k] for k in ("id", "title", "statement", "quantifier", "why_tests_cant", "anchors")}, ensure_ascii=False) + "\n")
    print(len(P))
    if os.environ.get("PLAN"):
        for q in P:
            print(f"- **{q['id']} {q['title']}.** {q['plan']}")

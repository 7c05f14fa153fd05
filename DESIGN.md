# Formal model of NetKet: design

Source: `/repo` (NetKet, python), read as text.  Nothing is executed.
Model and proofs: `lean/Verif/**`, Lean 4.33.0 and single Mathlib modules.

## Layout

- `lean/Verif/Model/*.lean` — executable or purely functional models of the code.  Every
  definition carries a comment with the file and lines of `/repo` it models and the simplifications made.
- `lean/Verif/Spec/*.lean` — where a specification needs its own definitions they live in the
  property file (or here), written without the model's helpers.
- `lean/Verif/Lemmas/*.lean` — helper lemmas.
- `lean/Verif/Props/*.lean` — the property theorems, named `Cnn_...`; next to each theorem an
  `example` showing that the hypotheses are met by a concrete non-trivial case.
- Suffix `_partial`: only part of the English property is proved; the comment and `MANIFEST.json` say what is missing.
- Suffix `_refuted`: the code violates (part of) the property; the theorem is the negation with a witness.

## Trusted base

1. Lean's kernel.  Theorems may depend on `propext`, `Classical.choice`, `Quot.sound` only
   (`tools/axioms.sh` prints them); no own axioms, no `sorry`, no `native_decide`, no `bv_decide`.
2. The reading of the python code: the model is tied to the code only by the cited lines.
3. Arithmetic: machine integers are modelled by `Nat`/`Int` (no overflow); floating point by exact
   rings/fields (`ℤ`, `ℚ`, `ℝ`, `ℂ` or an arbitrary commutative ring / ordered field).  Rounding, NaN and
   overflow are outside the model except where a model carries an explicit error value.
4. numpy/jax/numba/scipy/igraph/flax/optax/orjson/MPI calls are modelled by their documented behaviour
   (`searchsorted`, `unique`, `argsort`, `einsum`, `scan`, `vjp` as exact Jacobian products, collective sums...).
5. Randomness: every random draw is an explicit, universally quantified argument (or an explicit
   probability matrix for distributional statements).  Quality of the generator is not modelled.
6. Python object identity is modelled only where aliasing matters (explicit heap).

Of `netket/legacy` only the optimizers, the samplers with their numpy and jax kernels, the numpy machines, the jax machines, the torch machine (not the flax and haiku wrappers), the drivers, the statistics, `estimate_expectations`, the loggers and the random numbers are modelled (`Model/LegacyOpt`, `Model/LegacySR`, `Model/LegacySampler`, `Model/LegacyJaxSampler`, `Model/LegacyTree`, `Model/LegacyMachine`, `Model/LegacyJax`, `Model/LegacyTorch`, `Model/LegacyCustom`, `Model/LegacyDriver`, `Model/LegacyLog`); the rest is not modelled at all, nor are `netket/vmc_*`, plotting, progress bars, deprecation shims other than those in `Model/Deprecation`, JIT compilation
and tracing, GPU/sharding details, performance.

`COVERAGE.md` (generated by `tools/coverage.py`) lists for every module of the model the files it models, and every
function of `/repo/netket` which no definition of the model cites.

## Defects found (each backed by a `_refuted` theorem)

See the `_refuted` theorems in `Props/` and the notes in `MANIFEST.json`.

## Reading the properties

A property whose documented form is violated by the code is split: the part that holds is one property (status `proved`), its statement carrying
the hypotheses under which it holds; the violated clauses are separate properties (C100 to C130, C138, C139, C141, C143, C145, C147, C149, C151, C154, C156, C158, C161, C164, C166, C168, C170, C172, C174, C176, C178, C180, C182, C184, C186, C188, C190, C193, C197, C199, C201, C203, C207, C209, C211, C213, C215, C217, C219, C222, C224, C228, C234, C236, C238, C241, C243, C245, C247, C249, C251, C254, C256, C257, and those that had no part worth separating),
status `partial`, with the refutations (`_refuted`, a negation with a concrete witness), the part that holds (`_partial`) and, where possible,
a theorem for all inputs saying what the code does instead.

## Plan per property

- **C01 Homogeneous Hilbert indexing is a bijection in lexicographic order.** Executable digit loop number_to_state/state_to_number; round trips, range and strict monotonicity w.r.t. List lexicographic order by induction on N.
- **C02 Constrained Hilbert spaces enumerate exactly the allowed states.** bare numbers = filtered range; binary search modelled as searchsorted. Rejection part is false of the code: searchsorted only raises past the end; negation with witness, positive part proved (_partial).
- **C03 TensorHilbert indexing is a bijection compatible with its factors.** Factors as records (size, n_states, toState, toNum) with a round-trip law; divmod loop from the last factor and cumulative products modelled literally.
- **C04 DoubledHilbert indexes (row, column) pairs consistently with density matrices.** Same record as C03. The shape part is false when the physical space is a TensorHilbert (ndarray * 2); negation with witness plus positive theorem for tuple shapes.
- **C05 Too large indices and wrong-size states are rejected.** Checks modelled over Int with an error value. Negative numbers are accepted by the code: negation with witness, partial for numbers >= n_states.
- **C06 flip_state changes exactly the requested site to a different valid local state.** Random draw = explicit argument. Spin-1/2, generic spin, Fock, Qubit, Custom, Tensor, Doubled kernels. Custom with unsorted local states and Doubled over Tensor are false: negations.
- **C07 Random states of a constrained space satisfy the constraint.** Loop of single-particle insertions with the random choice as an arbitrary oracle over the currently non-full sites; permutation of a fixed multiset for spin 1/2.
- **C08 Partial trace of a Hilbert space keeps the right sites.** Shape-level model of ptrace on sub-space lists; specification by filtering the list of all sites.
- **C09 Powers and products of Hilbert spaces behave like tensor powers and products.** Model of __mul__/__pow__ on space descriptions. Powers of constrained spaces raise UnboundLocalError instead: negation, partial for unconstrained.
- **C10 LocalOperator connected elements are the matrix elements of the sum of its local terms.** Kernel modelled with precomputed diagonal / off-diagonal tables as lists of (mel, newlocal); specification is the plain mathematical embedding.
- **C11 The order in which acting_on is listed does not matter.** Reordering modelled by the code's index arithmetic. False for inhomogeneous local dimensions: negation with sizes (2,3); proved for homogeneous dimensions.
- **C12 Sums, differences and scalar multiples of local operators act linearly.** Term-list model merging equal supports and inserting new ones; semantics = sum of embeddings.
- **C13 Product of local operators is the matrix product.** Embedding on union support of each pair of terms; composition law of embeddings proved for arbitrary supports.
- **C14 Building or combining operators never changes other operators or user arrays.** Heap of matrix buffers with references. The code stores np.asarray views: negations with witnesses (constructor and iadd), partial for the copying operations.
- **C15 is_hermitian never claims a non-hermitian operator is hermitian.** Flag as a field updated as in the code. False (1j*sx): negation; partial for constructor, sums and real scalings.
- **C16 Lazy adjoint, transpose, conjugate and square wrappers denote what they say.** Expression type with a rewriting function that mirrors the methods and denotation into matrices over a star ring. Two rewrite rules are wrong (concrete conjugate of Transpose, conjugate of Squared): negations; soundness of the others proved.
- **C17 max_conn_size bounds the number of connected elements and padding preserves them.** Count model of the kernel. False for constant-only operators (0 reported, 1 returned): negation; bound proved when nonzero diagonal accounting applies; padding theorem for rows.
- **C18 Batched connected elements are the concatenation of single-configuration results.** Generic flatten with sections and np.split; exact inverse theorem for all row lengths.
- **C19 to_sparse/to_dense agree with get_conn and with applying the operator.** CSR construction from sections modelled with duplicate summation; equality with Finset sums.
- **C20 PauliStrings represent the weighted sum of Pauli products.** Grouped representation (flip set -> list of (weight, z-sites)) against the recursive tensor product of 2x2 matrices over a commutative ring with i^2=-1.
- **C21 Ising Hamiltonian rows equal the operator J sum szsz - h sum sx.** Kernel loop vs. sum of embedded local 2x2 and 4x4 matrices.
- **C22 BoseHubbard conserves particles, respects the cut-off and stays within max_conn_size.** Kernel modelled with symbolic sqrt amplitudes (squares). Conversion part false (U/2 factor): negation; the rest proved.
- **C23 Lindbladian matrix elements, trace and hermiticity preservation.** Matrices over ℂ indexed by any finite type; row enumeration = code's three loops. Padding to max over diff(sections) false for the first batch element: negation.
- **C24 Hamiltonian objects multiply in the order written.** Model of dispatch. The reversed product is computed in the wrong order: negation with non-commuting witness; partial for H @ B.
- **C25 GraphOperator is the sum of its site and bond terms over the graph.** List-of-terms model. Site-only construction fails an assertion: negation; sum theorem proved.
- **C26 History keeps every appended value in order.** State machine over columns. Dict-append violates equal lengths (missing key, no explicit iteration): negation; partial for well-formed appends.
- **C27 JsonLog never holds back more than write_every entries.** Counters as state machine; invariant by induction on operations.
- **C28 A crash while logging never loses previously flushed data.** Flush as a list of file-system steps (truncate, write chunks). False: the file is truncated in place; negation, partial for crashes outside a flush.
- **C29 StateLog writes every k-th state to a fresh name.** State machine with a map of file names. Append on an empty target raises: negation; partial otherwise.
- **C30 A driver performs exactly the requested number of updates.** State machine with stop callbacks as arbitrary predicates. Exact count false when step does not divide n_iter: negation; theorem with ceil(n/step)*step and exactness when step divides n.
- **C31 EarlyStopping: exact condition.** State machine over ordered losses. min_delta is not honoured in the tracking of the best value as documented: negation; theorem for min_delta=0.
- **C32 Timeout stops a run at the first call after the limit.** State machine with a monotone clock as input.
- **C33 Preconditioner restart policy follows its documentation.** State machine with an arbitrary solver. The code does the opposite: negation and the exact behaviour proved.
- **C34 Lattice site numbering is a bijection with basis coordinates.** Row-major enumeration by ndindex; mixed-radix round trip by induction on dimensions.
- **C35 Grid edges are exactly the nearest neighbour pairs.** Edge generation loop modelled; membership iff and no-duplicates theorems.
- **C36 Graph reports the edges and colours it was given.** List model of cleaning and filtering; rejects malformed colours.
- **C37 A lattice has all its sites as nodes.** Node count computed from edges only: negation for the open one-site chain, partial when the last site has an edge.
- **C38 Permutation products compose as maps.** Permutation action as list gather; composition law; Composite normal form soundness.
- **C39 Group inverse and product tables are correct.** Lookup-table construction modelled with dictionary semantics; correctness and rejection for all sets.
- **C40 remove_duplicates keeps one representative of every element.** np.unique model. Inverse indices refer to sorted order: negation; distinctness and coverage proved.
- **C41 Conjugacy classes partition the group.** Loop over unvisited elements modelled over an abstract finite group given by its product table.
- **C42 Point-group affine maps compose and invert.** (d+1)x(d+1) affine matrices over a field.
- **C43 Little-group irreps lift to complex characters unchanged.** Writing complex values into a real array drops the imaginary parts: negation (C3), partial for real tables.
- **C44 Metropolis transitions satisfy detailed balance.** Transition matrix q(x,y) min(1, pi(y)/pi(x) * corr) over the reals; local, exchange and Hamiltonian rules' proposal matrices from the code.
- **C45 Exchange moves conserve the constraint.** Swap model; List.Perm theorem lifted to chains of any length.
- **C46 Acceptance statistics count the moves since the last reset.** Counter machines for both samplers. Numpy variant never resets and over-counts on several ranks: negations; jax variant proved.
- **C47 Sampling a chain in pieces equals sampling it at once.** scan as iterate. Numpy sample_next returns its internal buffer: heap negation; jax theorem proved.
- **C48 Number of chains and samples is rounded up consistently.** Arithmetic model with setters as operations. chain_length/n_samples_per_rank accessors and the sampler setter break it: negations for n_nodes>1; partial for n_samples.
- **C49 Exact sampler draws from |psi|^machine_pow.** pdf model over reals. sample_next(state=None) uses an un-reset state: negation; pdf theorem proved.
- **C50 Inverse-CDF choice selects within range with the right probabilities.** cumsum model; interval characterisation.
- **C51 Autoregressive states are normalised and directly sampled.** Conditionals as arbitrary functions of earlier sites, normalised by l2; induction on sites over the reals. machine_pow ignored by the sampler: negation.
- **C52 Masked layers are autoregressive.** Index-level model of masks and padded causal convolution; dependency theorem.
- **C53 Hamiltonian rule reports the exact proposal ratio.** Instance of C44 with q(x,y) = 1/n(x).
- **C54 Statistics do not depend on how samples are split over ranks.** Rank list model over a field.
- **C55 to_array is independent of the number of ranks.** Padding/chunk model. False when padding exceeds one chunk: negation (5 states, 4 ranks); partial otherwise.
- **C56 Cached samples always belong to the current parameters.** State machine with provenance tags; invariant by induction; violations as negations.
- **C57 Mixed state and its diagonal share parameters.** State machine; invariant by induction.
- **C58 Serialising and restoring an MCState loses nothing.** Record round trip with the setters' side effects.
- **C59 expect_and_grad computes the covariance gradient.** Finite-sum model over ℂ. The Lρ² gradient multiplies an already averaged term by the number of ranks: negation; hermitian gradient proved.
- **C60 sample(n_discard) honours its argument.** Argument-resolution model. Ignored when the stored default is 0 or argument is falsy: negation; partial.
- **C61 Symmetrised layers are equivariant and RBMSymm is invariant.** Full-kernel gather indices modelled; sums over Fin n re-indexed by permutations.
- **C62 Group-convolution layers are equivariant and GCNN amplitudes are invariant.** product_table kernel over abstract finite group. Parity variant's character array has a non-broadcastable shape: negation.
- **C63 Neural density matrices are hermitian and positive.** log rho over ℂ with log_cosh replaced by its exponential cosh product; Gram decomposition.
- **C64 Periodic MPS amplitude is the trace of the matrix product and translation invariant.** Matrix fold; cyclicity of the trace.
- **C65 The quantum geometric tensor is hermitian positive semidefinite, however it is represented.** Matrices over ℂ; centred covariance identities.
- **C66 Flattening parameter trees is lossless.** Inductive tree with leaf lists; round trip by induction.
- **C67 Random keys handed out are never reused.** Keys as paths in the split tree. next() hands out the key it later splits: negation; partial for take-only use.
- **C68 R->C vector-Jacobian products are complex-linear.** Split into four real vjps as in the code; has_aux unpacking defect of grad as negation.
- **C69 Equal hashable arrays hash equally.** Typed array model with byte encoding. False across dtypes and broadcasting shapes: negation; partial for same dtype and shape.
- **C70 Cached properties of dataclasses are never stale.** Object = fields + cache slots; state machine.
- **C71 Exact steady state with sparse matrices uses L†L.** Dense branch multiplies elementwise: negation; sparse branch proved equal to L†L.
- **C72 Connected-element kernel stays inside its buffers.** Kernel buffers carry an out-of-bounds flag. False for operators without diagonal and a last row without connections: negation; invariant otherwise.
- **C73 Matrices of the wrong size are rejected.** False when a term on the same sites already exists: negation; proved for a new support.
- **C74 In-place squaring equals the square.** False with a non-zero constant: negation; proved without constant.
- **C75 Malformed Pauli strings are rejected.** Validation regex modelled on characters. The `$` of the regex admits a trailing newline: negation; everything else proved.
- **C76 Sums and differences of special Hamiltonians denote sums and differences.** False for different graphs (edges of the second are ignored), graphs whose last nodes are isolated (copy rebuilds the graph from the edges) and B-H (no __neg__): negations; proved for equal edges covering the nodes and for sums with local operators.
- **C77 A LocalOperator of several matrices has the common dtype.** False: the result of promote_types in the loop is discarded, [real, complex] raises: negation; proved when the first matrix has the largest kind.
- **C78 LocalLiouvillian: padded batches keep every connected element.** row starts, width computation and clearing modelled; theorem under 'first row not longest', refutation otherwise
- **C79 LocalLiouvillian.to_linear_operator applies the Lindblad generator.** matrices from to_sparse (C19), matvec as in the code; dtype of the accumulator
- **C80 MCMixedState accepts its documented arguments and samples its diagonal with machine_pow 1.** False: n_samples_per_rank and apply_fun raise, the sampler_diag setter does not set machine_pow: negations; proved for model and n_samples.
- **C81 statistics gives an error estimate whenever there are enough samples.** Model/Stats.lean. The finite cases are proved under positive variance; zero variance gives NaN (refuted).
- **C82 Equal hashable partials behave equally.** Model/HashArray.lean. Equality compares code objects only: hash consistency proved, behaviour refuted for closures.
- **C83 Cached properties follow jax tree operations.** Model/Dataclass.lean. Caches are meta fields and survive unflattening: refuted once a property has been read; proved otherwise.
- **C84 The FFT implementations of the symmetric layers agree with the matrix implementations.** DFT over complex numbers with Mathlib roots of unity; the convolution theorem, then the layers entry by entry against the matrix layers of C61/C62; the hypotheses on the order of rows are discharged from C85
- **C85 Translation and space groups list translations in row-major order of the cells.** induction over the axes for the reduce; coordinates by division and remainder
- **C86 When FFT layers can be set up.** refuted: the number of symmetries per cell is an integer division by the number of cells, but open axes contribute one translation only
- **C87 RBM, RBMModPhase and Jastrow return the documented amplitude.** exponentials of the log-amplitudes in ℂ, so that branch cuts of the logarithm do not matter; one-hot encoding over integers, refuted for half-integer/negative quantum numbers
- **C88 SR passes its arguments to tensor and solver.** keywords as association lists, Python's call protocol explicit; refuted for options of the solver (every tensor refuses them), matrix, jacobian, centered, machine=
- **C89 LinearPreconditioner restarts, solve arguments and LU behave as documented.** solver as an arbitrary function; refuted (flag has the opposite meaning, arguments refused or dropped, trans ignored), with theorems on what happens instead
- **C90 QGTAuto calls the chosen constructor with the given options.** state machine with the cache; refuted: keywords of the first call with a state stay, an error poisons the cache, dense solver with mixed parameters
- **C91 Spin operators represent the spin algebra.** s ↦ dimension k+1; matrices entrywise over ℚ[√] in ℝ/ℂ; refuted: σ± is half of the documented combination, σz has the sign of minus the quantum number, total_sz
- **C92 Boson operators represent the oscillator algebra.** entrywise; refuted: negative n is accepted (python indexing)
- **C93 local_values are the local estimators.** kernels with sections over the connected elements of C10/C18; empty batches of density matrices refuted
- **C94 der_local_values are the derivatives of the local values.** HasDerivAt of the local value; loop over batches by induction; refuted for a single configuration and batch sizes below one
- **C95 Local cost functions are evaluated over the batch.** vmap as a function on lists; the documented default axes are refuted (every call is a ValueError)
- **C96 Replica exchange: moves and exchange probabilities.** index arithmetic mod n; detailed balance via C44
- **C97 Replica exchange: samples, statistics, construction.** positive parts partial; every clause has a refutation
- **C98 Exact propagation solves the equations of motion.** HasDerivAt, Grönwall
- **C99 Exact time evolution driver.** positive: estimate for normalised states, advance, iter; refuted: the rest
- **C100 Hilbert spaces reject invalid arguments.** every clause is refuted; the actual behaviour (next allowed index; zero or wrap-around) is characterised for all inputs
- **C101 Doubled spaces report the shape of both halves.** proved for tuples, refuted for ndarrays (doubled elementwise)
- **C102 Flips and local moves on CustomHilbert in any order and on doubled products.** refuted with concrete spaces
- **C103 Order of supports and products on spaces with different local dimensions.** refuted on dimensions 2 and 3
- **C104 Constructors and in-place operations on shared buffers.** refuted in the heap model
- **C105 is_hermitian after complex scaling.** refuted: 1j*sigmax keeps its flag, its square has the wrong sign
- **C106 Wrappers of squares and concrete conjugates.** refuted
- **C107 max_conn_size bounds the connected elements of every operator.** refuted
- **C108 Operators leaving a constrained space.** refuted
- **C109 BoseHubbard equals its LocalOperator conversion.** characterised; refuted for U != 0 and for J = 0 with V != 0
- **C110 LocalLiouvillian.get_conn on all pairs, constant jump operators.** refuted
- **C111 GraphOperator from any documented lists.** refuted
- **C112 History accepts every documented item.** refuted clause by clause
- **C113 StateLog on new targets in every mode.** refuted
- **C114 run performs n_iter updates; min_delta is a minimal improvement.** partial: steps dividing n_iter; min_delta = 0
- **C115 Single sites and doubled graphs.** two copies up to colours proved; colours and the single site refuted
- **C116 Identity in products, inverse of remove_duplicates.** reconstruction when the result is in lexicographic order
- **C117 MetropolisSamplerNumpy behaves as MetropolisSampler.** one rank without reset proved
- **C118 Entry points of samplers on all documented input.** refuted clause by clause
- **C119 Masked 1d convolutions keep the number of sites.** proved for dilation <= length, refuted beyond
- **C120 MCState: numbers of samples read back as set.** one rank proved; getter characterised
- **C121 Gradients for real parameters and of <L†L>.** half of the derivative; one rank
- **C122 Ansätze evaluate on all documented input.** positive parts for one symmetry, positive traces, non-negative quantum numbers
- **C123 QGT: dense matrices, rescaling, mixed leaves, warm starts for every ansatz.** positive parts: holomorphic or real; no vanishing column; homogeneous leaves; mode holomorphic
- **C124 Keys from next, vjp of complex-to-real functions, auxiliary output.** refuted
- **C125 Exact steady state with sparse=False and iterative solvers.** iterative: whenever the solver solves the system; dense refuted
- **C126 Corner cases of strings, vectors, statistics and partials.** refuted clause by clause
- **C127 FFT layers can be built for open lattices.** refuted for every open chain of three or more sites
- **C128 SR and QGTAuto accept their documented options in every call.** refuted clause by clause
- **C129 Spin operators agree with the quantum numbers of configurations.** what holds instead: half the combination, the opposite sign
- **C130 Documented calls of proj, local values and cost functions.** refuted clause by clause
- **C131 Planar point groups consist of the isometries they name.** planar constructors over the reals
- **C132 Axial point groups consist of the isometries they name.** axial constructors over the reals, completeness by a frame adapted to the axis
- **C133 Glide and screw groups.** loop with fuel, powers of the screw
- **C134 Cubic point groups and the diamond space group.** images of vertices determine the map; nearest neighbours in diamond
- **C135 Operations on point groups.** list models
- **C136 Bins for floating-point numbers.** rounding to even in an ordered field
- **C137 prune_zeros sets small parts to zero.** lists of numbers
- **C138 Point-group constructors reject other arguments, and point groups can be compared.** refuted clause by clause; what happens instead
- **C139 prune_zeros leaves its argument alone and uses its tolerance.** refuted; what the argument becomes
- **C140 The custom rule samples the given stochastic operators.** buffers and sections as lists; Lebesgue measure of the random numbers leading to y
- **C141 The custom rule stays inside the row it has drawn.** refuted for operators with a constant and for small elements; what holds for rows adding up to one
- **C142 nk.jax.expect is the sample mean with the score-function gradient.** real parameters, derivative in one parameter; sums over all sample tuples
- **C143 The gradient of expect is unbiased and that of the kernel independent of the ranks.** refuted by one sample and by two ranks; the factors (n-1)/n and 1/R
- **C144 Optimisation steps of VMC and SteadyState.** state machine over the MCState model with arbitrary parts; derivative of the energy from the covariance formula
- **C145 Drivers do not interfere, check their operator, describe themselves and use one set of samples.** refuted with two drivers sharing a preconditioner, another space, the missing attribute sr, a mutable model state; what holds instead
- **C146 Configuration flags.** dictionaries as functions; strings as lists of characters
- **C147 Flags are updated like they are defined.** refuted by update(name, '0'), by NETKET_EXPERIMENTAL, by a bad environment variable; what holds instead
- **C148 MPI reductions, broadcast and gathering.** memories with strided views, NumPy's rule when reshape(-1) is a view, in-place allreduce
- **C149 MPI primitives for any layout and any number of ranks.** refuted by a transposed matrix, one rank, root 7, the integer 5; theorem for every layout saying what happens
- **C150 character_table lists exactly the irreducible characters.** characters = common eigenfunctions of the class algebra (spherical functions); Schur's lemma and irreducible decomposition of the regular representation from Mathlib; genericity by counting hyperplanes; eig as a contract
- **C151 Character tables do not depend on which element comes first.** refuted by S3 with a transposition first (division by zero); for first elements without zero characters: rows are characters divided by the phase of their first value
- **C152 irrep_matrices returns unitary representations with the characters of the table.** bins of sorted eigenvalues are unions of eigenspaces of a matrix commuting with right translations; isotypic projector; a representation of dimension χ(1) with nonzero χ-projector has character χ
- **C153 space_group_irreps returns the irreducible characters of the star of k.** space group as a semidirect product; character induced from translations times little group; norms and scalar products by orthogonality (Mackey), completeness by Frobenius reciprocity
- **C154 space_group_irreps with complex characters or operations with translations.** refuted: a real array drops imaginary parts (threefold axis at k=0); the phase exp(-i w.p(k)) differs on equivalent images of k at the zone boundary (reflection x -> 1/2 - x at k = pi gives 0)
- **C155 Point, translation and space groups of a grid act as its symmetries.** signed permutation matrices; positions of sites modulo the box; an array and a symmetry are related by where it moves each site, a relation kept by products
- **C156 point_group of a grid lists every symmetry once.** refuted for every such grid: the reflection of the short axis is the identity permutation, listed twice; every row of the table repeats indices
- **C157 DenseSymm, DenseEquivariant and GCNN build layers that compute the group's transform.** small model of the dispatch, composed with C61, C62, C84, C85, C152
- **C158 Symmetries DenseEquivariant and GCNN document but do not accept.** each clause is refuted: NameError, AttributeError, silent FFT layer, returned exception object, ValueError
- **C159 BCC, FCC, Diamond, Pyrochlore, Triangular, Honeycomb and Kagome connect nearest neighbours.** real geometry; squared distances are integer quadratic forms, classified by their minimal vectors
- **C160 Arguments of lattices are checked and normalised.** small functions modelled directly
- **C161 Sites given outside of the unit cell give a warning.** refuted: the check is made on coordinates already reduced modulo the cell, so the warning is never issued; a concrete chain loses an edge
- **C162 random_state gives states of the space in the documented shape.** mutual induction over nested spaces; random numbers abstract
- **C163 The distribution of random_state.** count the random numbers leading to a given state, by induction over the draws
- **C164 random_state is uniform, takes any size and works without a key.** refuted: constrained bosons and larger spins are not uniform; tuples of more than three dimensions are not dispatched; the deprecated form never draws n_max for Fock and does not exist for products
- **C165 DenseGeneral and Dense contract the documented axes.** arrays as functions of multi-indices; dot_general, expand_dims and broadcasting modelled
- **C166 DenseGeneral along any axis, with any dtype.** refuted: along the first axis of a matrix the bias is added to the rows (or the call raises); the parameters are float64 whatever the dtype
- **C167 Equal Hilbert spaces are the same space.** function objects carry their identity; mutual induction over nested spaces
- **C168 Spaces built with the same arguments are equal, and equal spaces number their states alike.** refuted: every constrained Spin or Fock carries its own constraint closure and so equals no other; a CustomHilbert equals the one with permuted local states, and their product is the square of the first
- **C169 Automorphisms, distances and unions of graphs.** isomorphism search of igraph is an argument specified by its result; distances by breadth-first search
- **C170 The distance between unconnected nodes is -1.** refuted: igraph's inf is returned
- **C171 Arithmetic on pytrees, dtypes, composition and keys across processes.** trees with exact complex entries; ideal keys; broadcast gives the value of the root
- **C172 Homogeneous trees, empty trees and splitting over a communicator.** refuted: integer leaves are neither real nor complex; reduce without start raises; comm is ignored
- **C173 Legacy optimizers perform the documented updates.** vectors over an index type, exact arithmetic, closed forms by induction over the updates
- **C174 Documented options of the legacy optimizers.** refuted clause by clause
- **C175 Legacy samplers: proposals, acceptance, bookkeeping and replica exchange.** Markov kernels of Spec/Markov, invariants over executions, heap for the array returned by __next__
- **C176 Legacy samplers: documented behaviour of the remaining options.** refuted clause by clause, with the law the Hamiltonian chain really samples
- **C177 Legacy machines: amplitudes, log-derivatives, symmetries and conversion to arrays.** amplitude as a separate formula over finite products; HasDerivAt of it; orbit relation for Jastrow tables; IsPermGroup for invariance
- **C178 Legacy machines: documented behaviour of the remaining options.** refuted clause by clause
- **C179 Legacy SR: choice of solver and the equation the update solves.** covariance of a pooled list as separate spec; positive semidefinite form, injective implies surjective
- **C180 Legacy SR: scale invariance, real dense solvers and repr.** refuted clause by clause
- **C181 Legacy drivers: turns of run, sample numbers and gradients of Vmc, SteadyState and Qsr.** list of events of a run as separate spec; averages over pooled samples; derivative of a quotient of sums of squares and of log of a sum
- **C182 Legacy drivers: iterators, lists of observables, reset and defaults.** refuted clause by clause
- **C183 Quantum geometric tensor on several processes, as a tree, and with dense solvers.** pooling of samples: sums over processes and samples as sums over all samples; the pooled tensor is that of C65
- **C184 QGTJacobianPyTree: initial guess.** refuted; what holds as partial theorem
- **C185 Legacy statistics, estimate_expectations, loggers and random numbers.** statistics reduce to C54; invariant of the logger over runs of calls; induction over trees
- **C186 Legacy statistics and loggers: deviations.** every clause is refuted; what holds as partial theorems
- **C187 Padded connected elements, numbers of connected elements and derivatives of local values for jax machines.** reduce padded rows to the kernels of C17 and C22; derivative of finite sums; C94 for the values
- **C188 Padded connected elements and jax derivatives: deviations.** every clause is refuted; what holds as partial theorems
- **C189 Construction of samplers, and samplers on several devices.** case analysis of the constructors; least element of a set of integers; induction over calls
- **C190 Construction of samplers: deviations.** every clause is refuted; what holds as a partial theorem
- **C191 Names of point-group symmetries.** uniqueness of the decomposition of an isometry; columns of a Schur decomposition of a normal matrix are eigenvectors; bounds on the rounding
- **C192 Generic groups, translation groups and default point groups.** induction over the loops; translations by integer vectors modulo the extents add up
- **C193 Generic groups, equality of point groups and default groups: deviations.** every clause is refuted; what holds as partial theorems
- **C194 Saved variables are loaded again.** model of flax.serialization.from_state_dict on dictionaries, of the resolution of names and of members of archives, combined with the model of StateLog
- **C195 Convolutional layers.** model of the two layers with conv_general_dilated and conv_transpose of jax.lax on arrays of any shape
- **C196 Buffers of BoseHubbard.** state machine of calls on the buffers
- **C197 Results of BoseHubbard and earlier calls.** refuted for the dtype and for occupations that the dtype of an earlier batch does not hold; the rest proved
- **C198 Hamiltonian rule: the operator sampled with.** state machine with the table of compiled chains
- **C199 Hamiltonian rule and operators changed in place.** refuted: all later calls with the same static arguments use the operator as it was at the first; the rest proved
- **C200 Attributes and iteration of histories.** attribute lookup of python for the class
- **C201 Attributes and copies of histories: deviations.** refuted for copies, names of the class and histories without main value
- **C202 Metropolis chains reach |psi|^pow.** irreducibility, maximum principle, contraction of the spread, compactness for averages
- **C203 Metropolis samples that do not explore the space.** refuted: parity of up spins conserved for constant modulus and even n_sweeps, multiset of values conserved by exchange; exact condition proved for local moves
- **C204 Estimates from Metropolis samples converge to the exact values.** Poisson equation of the chain, second moments of the trajectories, composition with local values, stats.mean and the gradient
- **C205 Estimates from exact and autoregressive samples are unbiased.** expected value over product measures, probabilities of draws from C49 and C51, variance identity
- **C206 Legacy jax machines: amplitudes, density matrices, derivatives, parameters and the S matrix.** products of cosh kernels are Gram kernels; traces are cyclic; jax's convention for vector-Jacobian products
- **C207 Legacy jax machines: documented behaviour of the remaining cases.** for each clause the value which the code has instead, for all inputs
- **C208 Legacy CustomSampler kernel: accepted operators, proposals and stationary distribution.** the kernel is related to the rule of the new sampler (C140); the buffers are overwritten before they are read
- **C209 Legacy CustomSampler kernel: arrays of the caller, constants and equal supports.** for each clause the value which the code has instead, for all inputs
- **C210 Legacy torch machine: parameters, derivatives and vector-Jacobian products.** induction over the tensors; linearity of the backward pass
- **C211 Legacy torch machine: log_val of a vector and TorchLogCosh.** for each clause the value which the code has instead, for all inputs
- **C212 numba4jax: results of numba functions called from jax.** arrays with explicit shapes; the loop of lax.map by induction
- **C213 numba4jax: compiled functions with many arguments, and batching.** for each clause what the code does instead, for all inputs
- **C214 MCState: construction from models of any framework, functions, variables and seeds.** case analysis over the kinds of models, composed with the model of the setters (C48, C56)
- **C215 MCState: documented arguments and frameworks.** for each clause what the code does instead, for all inputs
- **C216 struct.dataclass: construction, inheritance, copies, hashes and pytrees.** classes as lists of levels; invariants over the operations on objects
- **C217 struct.dataclass: cached properties with super, positional arguments, replace of PGSymmetry.** for each clause what the code does instead, for all inputs
- **C218 expect and expect_and_grad: the statistics are those of the chains.** reshape and transpose as list functions, composed with the theorems about statistics (C54, C81)
- **C219 Statistics of squared superoperators, of is_hermitian=False, of jax.expect, and gradients of mixed states.** for each clause what the code does instead, for all inputs; permutation invariance of mean and variance
- **C220 Eigenstates have zero variance and zero gradient, and energies lie above the ground state.** composition of C93, C218, C59 and C65; positive semidefinite matrices for the variational principle
- **C221 What a run reports to its loggers.** a state machine of the run with arbitrary loggers; induction over the turns; instance with the JsonLog model
- **C222 Iterables accepted by run (deviations).** same model; the iterator is used up after the first loop
- **C223 The trajectories of the optimizers.** optax transformations on one real parameter; induction over the number of updates
- **C224 Documented update rules of the optimizers (deviations).** first update compared with the documented one
- **C225 Expectation values on mixed states are physical.** composition of C93 and C63 with positive semidefinite matrices
- **C226 The steady-state cost is the norm of the Lindblad equation's right-hand side.** composition of C23 with the norm over all matrix elements
- **C227 Hamiltonians on a graph have the symmetries of the graph.** composition of C21, C22, C25, C93 and C169
- **C228 The sign rule of Heisenberg is a change of basis that makes the matrix stoquastic.** composition of C25 with the permutation form of the bond
- **C229 Exact diagonalisation: lanczos_ed and full_ed agree, are ordered, and bound variational energies.** model of the keyword handling and of the reversal of the order; spectral theorem and C220 for the bound
- **C230 The iterative steady_state returns a stationary state of trace one.** model of the vectors handed to the solver, composed with C79
- **C231 The SR update is the best approximation of an imaginary-time step.** combine the model of the gradient (C59) with the quadratic form of the tensor (C65): completing the square
- **C232 Operators that respect a constraint work on the constrained space.** invariant of the stored terms through the constructor; then C19 on the constrained index
- **C233 Hiding submodules only renames them.** closed form of the attributes after the loop by induction over the files
- **C234 Hiding submodules loses nothing.** counterexample with a.py and _a.py; the part without clashes
- **C235 The log-pdf of a sampler is the power of the amplitude.** explicit cache keyed by the equality of HashablePartial; invariant of the cache
- **C236 Log-pdfs that compare equal are the same function.** the closure of the lambda is not compared: counterexample for all models whose modulus is not one
- **C237 Flat updates of the legacy SR get the shapes of the parameters.** induction over the leaves with the running position
- **C238 Updates of the wrong length are rejected.** counterexample: surplus entries are dropped
- **C239 Ising and BoseHubbard as matrices, also with a fixed number of particles.** row-wise kernels (C18, C21, C22) through C19 on the indexed space
- **C240 Diagnostic tools report what the system says.** texts as lists of characters; parse of rendered texts
- **C241 Diagnostic tools work on every supported system.** witnesses, and exact conditions
- **C242 Deprecated names act like their replacements.** calls as functions of filter and state; C34 for the numbering
- **C243 Deprecated names keep their documented arguments.** witnesses, and exact conditions
- **C244 Legacy samplers on JAX sample from |psi|^machine_pow.** inductive relation of moves and samples; C44 and C175 for stationarity
- **C245 Legacy samplers on JAX: documented arguments and resets.** witnesses, and exact results
- **C246 The text of Stats shows mean, error and variance to the accuracy of the error.** Python's rounding of decimals defined from the exact value; a separate reader of numbers as specification
- **C247 The text of Stats shows the mean to the accuracy of the error, however small.** a witness
- **C248 What error bars, correlation times and R_hat mean.** averages and variances of lists, expectation over products
- **C249 R_hat against the Gelman-Rubin ratio.** a witness
- **C250 Contents of JSON logs.** structural recursion on the data, injectivity of the encoding
- **C251 Every logged history can be written to a JSON log and read back.** witnesses for every column of two or more dimensions, NaN
- **C252 An update of VMC lowers the energy to first order.** derivative of the Rayleigh quotient; covariance form of the gradient; positivity of the geometric tensor
- **C253 An update of SteadyState lowers the cost to first order.** derivative of the quotient of two sums of squares; averages over samples
- **C254 An update of SteadyState lowers the cost on any number of processes.** witness: dephasing of one spin on four processes
- **C255 SR without shift does not depend on the parametrisation.** the linear system is the normal equation of a projection
- **C256 Sums, differences, products and quotients with lazily transposed operators.** Model which method Python calls (Model/LazyArith.lean) on top of the concrete operations; reduce to C12, C13 and C16_collect; refute differences with a wrapper on the right.
- **C257 Adjoints, transposes, conjugates and squares of Ising, PauliStrings and LocalLiouvillian.** Model Obj/Expr (Model/SpecialLazy); entries read off the connected elements; use C20, C15 and C21 for the matrices of PauliStrings and Ising.
- **C258 Connectedness and bipartiteness of graphs, and what Heisenberg makes of them.** Breadth-first search as for C169 (igraph), types alternating from the first node of each component; walks change the colour at every step; combine with C228 for Heisenberg.
- **C259 Grids are connected, and bipartite unless a periodic direction is odd.** Edges of the grid from C35; sum of the coordinates modulo 2 as colouring; a cycle around an odd axis; steps towards the origin connect every site.
- **C260 What the masked layers compute.** Sums over the flattened input split into sites; sum over the kernel reflected; the mask of the last row against the order of the sites.

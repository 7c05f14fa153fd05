{
 "C02": "What happens to violating configurations is C100.",
 "C04": "The attribute `shape` is C101.",
 "C05": "Negative numbers are C100.",
 "C06": "Unsorted CustomHilbert and doubled products are C102.",
 "C08": "Repeated sites are C100.",
 "C09": "Combinations that cannot be expressed are C100.",
 "C11": "Different local dimensions are C103.",
 "C13": "Different local dimensions are C103.",
 "C15": "Complex scalars and constants are C105.",
 "C17": "The bound for constants and after multiplication with zero is C107.",
 "C72": "Proved whenever the operator has a diagonal; refuted without.",
 "C73": "Proved for a new support; refuted when the support exists already.",
 "C74": "Proved without constant; refuted with constant.",
 "C14": "Other in-place operations and the constructor are C104.",
 "C16": "The exceptions are C106.",
 "C19": "Operators leaving a constrained space are C108.",
 "C75": "A final newline is C126.",
 "C21": "Row sums, count, batches and the conversion to LocalOperator proved for every graph (multi-edges and self loops included).",
 "C22": "The LocalOperator conversion is C109.",
 "C24": "H @ B proved; B @ H is refuted (computed as H @ B) and H1 @ H2 raises TypeError.",
 "C25": "Site operators alone, several uncoloured bond operators and shared arrays are C111.",
 "C76": "Proved for equal edges covering the nodes and for sums with local operators; refuted for different graphs, isolated last nodes and B-H.",
 "C77": "Proved when the first matrix has the largest kind or a dtype is given; refuted for [real, complex].",
 "C23": "What happens otherwise is C110.",
 "C78": "Proved when the first pair is not the one with the longest rows; refuted otherwise (np.diff(sections) leaves out the first row). Padding entries sit at the zero configuration, outside the space for spins (refuted).",
 "C79": "Real vectors are C126.",
 "C26": "Other items are C112.",
 "C27": "Every property of the files proved for all sequences of calls and flushes, with clock readings as arguments; serialisation is a parameter.",
 "C28": "Refuted: the log file is truncated and rewritten in place. Proved: the states a crash can leave, and that nothing is lost outside of a flush.",
 "C29": "Assumes that no call has a step one less than the call before. Append on an empty target and fail with tar are C113.",
 "C30": "That run performs exactly n_iter updates is C114.",
 "C31": "The documented meaning of min_delta is C114.",
 "C32": "All sequences of calls and clock readings.",
 "C33": "The code does the opposite of its documentation; refuted and exact behaviour proved.",
 "C34": "Proved for all lattices in which every site has a neighbour at the smallest distance (others lose sites, C37), with Grid as an instance. Position lookup proved for distinct keys and, for one atom per cell, with fewer than 3326400 cells per axis. Positions are exact fractional coordinates instead of floats.",
 "C35": "Distances are exact integers instead of floats rounded to bins. A single open site is C115.",
 "C36": "igraph itself is assumed (stated in Model/Graph.lean). DoubledGraph is C115.",
 "C37": "Refuted: sites without a neighbour at the smallest distance are dropped. Proved when every site has one, and for Grid.",
 "C38": "Identity() @ Composite is C116.",
 "C39": "Proved for PermutationGroup: canonical arrays, last-key-wins dictionary, RuntimeError for an unclosed set.",
 "C40": "That they reconstruct the list is C116.",
 "C41": "For every table of g^-1 h of a finite list of distinct elements of a group; instances: permutation groups (C41_permutations) and point groups without a unit cell (C42_conjugacy).",
 "C42": "Exact field instead of floats; the rounding of comparable is replaced by canonical forms that are faithful up to lattice translations (hypothesis Faithful, satisfied in the examples).",
 "C43": "Complex characters lose their imaginary parts (refuted with the table of C4); real tables proved. The character table itself (numpy.linalg.eig) is an argument.",
 "C44": "Row and cache theorems about the vectorised sweep of MetropolisSampler; kernels as measures of the uniform number; exp/log exact. Unsorted local states are C102, the numpy sampler without reset C117.",
 "C45": "User-supplied clusters are C118.",
 "C46": "The numpy sampler is C117.",
 "C47": "The numpy sampler is C117, the exact sampler and module-level functions C118.",
 "C53": "Other operators are C118.",
 "C48": "Reading back the chain length and samples per rank, and assigning samplers, is C120.",
 "C49": "Distribution as the measure of the uniform number; exact log-amplitudes. sample_next without a state is C118.",
 "C50": "Over an ordered field and as a Lebesgue measure. The number 0 is C118.",
 "C51": "exp/log exact. machine_pow is C118.",
 "C52": "The number of outputs for dilations above the chain length is C119.",
 "C56": "The chain length of cached samples is C120.",
 "C57": "Invariant over all sequences of calls from the constructor on.",
 "C58": "Proved for consistent states restored into a state with the same sampler. Refuted after a change of sampler, and the original mixed state loses the cached samples of its diagonal.",
 "C60": "Refuted when the stored number is zero: the explicit argument is ignored. Proved otherwise.",
 "C80": "n_samples_per_rank and apply_fun raise, sampler_diag does not set machine_pow (refuted); proved for a model with n_samples.",
 "C54": "C54_unequal_differ shows that the hypothesis is needed.",
 "C55": "Refuted in general: padding may put fake states on ranks other than the last one (5 states, 4 ranks) or produce an error (2 states, 5 ranks). Proved when all padding falls on the last rank, in particular when the number of ranks divides the number of states; C55_iff characterises the failure.",
 "C59": "Real parameters and Lrho2 are C121.",
 "C68": "Complex to real and has_aux are C124.",
 "C81": "That an error is available for vanishing variance is C126.",
 "C66": "Round trips proved for all trees and all real/complex mixtures, for any tree of the same structure, not only the one the closure was made from; the vector-to-tree-to-vector direction for homogeneous trees.",
 "C67": "Ancestors with next are C124.",
 "C69": "Refuted for different integer widths, for broadcasting shapes and for signed zeros; proved for arrays of the same dtype and shape without floating point zeros.",
 "C70": "Cache freshness for all sequences of read and replace; restore: missing and unknown fields rejected, otherwise restored; round trip.",
 "C71": "sparse=False and the iterative method are C125.",
 "C82": "Closures with different captured values are C126.",
 "C83": "Refuted after the property has been read; proved for objects with empty caches.",
 "C61": "DenseSymmMatrix (mode='matrix'/'auto' for groups) and RBMSymm, any kernel, bias, mask, activation. FFT mode is C84.",
 "C62": "The irreps are assumed to be a complete set of unitary irreps (their construction is not modelled); the final cast to real and float arithmetic are not modelled. Parity variants are C122.",
 "C84": "Proved over the complex numbers (exact arithmetic), for the layers without mask. The lattice form C84_lattice takes that the space group is a group of permutations as hypotheses (shown for a ring with reflection).",
 "C85": "The lookup of shifted positions is taken as the shift of the cell (see C34). Mixed boundaries only as far as C86 needs them.",
 "C86": "Open lattices are C127.",
 "C87": "Exact complex arithmetic. RBMMultiVal is C122.",
 "C63": "Real parameters, default log_cosh activation, exact arithmetic; positivity as Gram matrix on every finite family of configurations.",
 "C64": "The check of the graph argument is not modelled. Real tensors are C122.",
 "C65": "Exact arithmetic, one rank, parameters ravelled. to_dense on the fly, vanishing columns, mixed leaves and warm starts are C123.",
 "C88": "Options of the solver and other documented options are C128.",
 "C89": "As documented refuted; C89_restart_true/false state the behaviour of the code.",
 "C90": "Changing keywords, errors and mixed parameters are C128.",
 "C91": "Documented ladder operators and the sign of sigmaz are C129.",
 "C92": "Negative n down to -N is C130.",
 "C93": "Operators reachable through the constructors and arithmetic of the model (Built); exact complex arithmetic. Empty batches of density matrices are C130.",
 "C94": "One complex parameter (the code is applied per parameter). Single configurations and other batch sizes are C130.",
 "C95": "Default axes are C130.",
 "C96": "Floating point replaced by exact reals; a uniform number u < p has probability min(p,1).",
 "C97": "refuted: the sample comes from the replica at β = 1 - 1/n after an exchange (new β is not stored, the index moves), the correction of the rule is multiplied by β, statistics divide by zero, acceptance is never updated, reset keeps the index, n_replicas check accepts all integers.",
 "C98": "The integrator itself (scipy) is not modelled: statements concern exact solutions of the ODE that the code passes to it.",
 "C99": "refuted: unnormalised states (variance, imaginary time), step_count, reset, run, matrix_type='direct'.",
 "C100": "Refuted clause by clause; C100_violating_gets_next_index, C100_negative_is_zero and C100_negative_wraps state for all inputs what happens instead.",
 "C101": "Holds for spaces whose shape is a tuple, refuted for TensorHilbert.",
 "C102": "Refuted: a site is flipped to its own value, another site's value is reported, the chain is not reversible.",
 "C103": "Refuted: on local dimensions 2 and 3 the operator is silently replaced by another one. The part that holds is C11 and C13.",
 "C104": "Refuted clause by clause.",
 "C105": "Refuted.",
 "C106": "Refuted: methods raise or return another operator.",
 "C107": "Refuted: a constant has one element and bound zero; 0*A keeps its entries. C107_max_conn_size_partial: the bound as it holds.",
 "C108": "Refuted: the element silently appears at another state. C108_constrained_partial: what is returned exactly.",
 "C109": "Refuted: twice U; V dropped without hopping. Proved for U = 0 (partial), and C109_to_local_operator_is characterises the result.",
 "C110": "Refuted: ValueError, uninitialised elements, dropped elements.",
 "C111": "Refuted: AssertionError, AssertionError, shared buffers.",
 "C112": "Refuted clause by clause.",
 "C113": "Refuted: IndexError; ValueError of tarfile. C113_targets_partial: the targets that do work.",
 "C114": "Refuted for steps that do not divide n_iter (rounded up) and for positive min_delta.",
 "C115": "Refuted: the constructor raises; colours are lost.",
 "C116": "Refuted: ambiguous dispatch; indices in another order.",
 "C117": "Proved on one rank without reset; refuted: reset keeps counters, ranks, stale cache, returned buffer overwritten.",
 "C118": "Refuted clause by clause (C118_support_partial: positive numbers).",
 "C119": "Refuted for exclusive layers on chains shorter than the dilation.",
 "C120": "Refuted: chain_length on several ranks, n_samples_per_rank getter, sampler setter, cached samples after sample(chain_length=...).",
 "C121": "Refuted: half of the derivative; on several ranks another result.",
 "C122": "Refuted: incompatible shapes, NaN for negative traces, one_hot of negative numbers is zero.",
 "C123": "Refuted clause by clause; the positive parts say exactly when it works.",
 "C124": "Refuted clause by clause.",
 "C125": "sparse=False multiplies elementwise (refuted on a qubit); iterative method partial: convergence of the solver is not proved.",
 "C126": "Refuted clause by clause.",
 "C127": "Refuted: ValueError. C127_setup_partial: the layers can be set up precisely if the number of cells along the open axes divides the order of the point group.",
 "C128": "Refuted clause by clause.",
 "C129": "Refuted; the _partial theorems state for every spin what holds instead.",
 "C130": "Refuted clause by clause.",
 "C131": "Coordinates are real numbers; np.allclose in the constructor is equality.",
 "C132": "Coordinates are real numbers; np.allclose in the constructor is equality; perpendicularity is tested with the tolerance 1e-8 and the theorems assume it exactly.",
 "C133": "screw_group is proved for q < 10^8, below which the tolerance 1e-8 of is_approx_int cannot stop the loop early.",
 "C134": "",
 "C135": "",
 "C136": "Exact arithmetic: x * bin_density + offset is not rounded before np.rint.",
 "C137": "",
 "C138": "Violated: C(n) with n ≤ 0 is the trivial group; the test of perpendicularity is not relative to the lengths of the axes; PointGroup.__eq__ raises TypeError for groups without unit cells, holds for prefixes and raises IndexError the other way round.",
 "C139": "Violated: the argument is overwritten, through views for complex arrays; atol is used only for the imaginary parts as a whole.",
 "C140": "Numbers are real; the check of the matrices is exact where the code uses np.allclose.",
 "C141": "Violated: the constant of the operator is returned as a diagonal element for every operator and changes the cumulative sums; elements below mel_cutoff are dropped after the check. The draw then reads the row of the next chain or past the end of the arrays.",
 "C142": "Real functions of real parameters.",
 "C143": "Violated: subtracting the sample mean computed from the same samples makes the score part too small by (n-1)/n; the kernel takes the mean instead of the sum over ranks of gradients already divided by the number of ranks.",
 "C144": "Descent is stated for exact expectation values (all configurations with their probabilities).",
 "C145": "Violated: sr_restart is written into the shared preconditioner object; SteadyState does not compare spaces; info reads the attribute sr, which does not exist; assigning the model state discards the samples between gradient and tensor.",
 "C146": "The parser of int() for strings is an argument.",
 "C147": "Violated: update applies bool() to the string; runtime is stored but never read; types are registered before the environment variable is read.",
 "C148": "Strides are non-negative and equal on all ranks.",
 "C149": "Violated: reshape(-1) copies arrays that are not C-ordered, the copy is reduced and dropped, and the local values are returned; on one rank the argument is returned as it is.",
 "C150": "numpy.linalg.eig is a contract: independent eigenvectors of the matrix passed. Exact arithmetic.",
 "C151": "Violated: rows are divided by the phase of their first entry, which is 0/0 if the character vanishes on the first element; documented only as a list of elements, no order required.",
 "C152": "eigh is a contract (sorted eigenvalues, orthonormal eigenvectors). Whether the fixed seeds give an accidental degeneracy (eigenvalues of different spaces closer than 3e-7) is not decided.",
 "C153": "The character table of the little group is an argument (C150 is about it). Entries within 1e-8 of zero are zeroed (prune_zeros).",
 "C154": "Both clauses are violated by the code; C153 is the part that holds.",
 "C155": "Positions are exact; arrays are compared without the names of the permutations. Extents of 3326400 or more are outside (positions are rounded to that grid by the code).",
 "C156": "Violated by the code for every grid with a short axis; the part for longer axes holds.",
 "C157": "The irrep modes rely on irrep_matrices returning a complete set; C152_complete and C157_irreps derive that from the contract of eigh, all irreducible characters listed and matching dimensions. Models with parity are not covered (C122). Keyword arguments handed on to the layers are not modelled.",
 "C158": "What holds for product tables is C158_product_table_partial.",
 "C159": "Exact real arithmetic; the KD tree search is modelled as the set of pairs at a positive distance within the cutoff. The point group handed to these lattices (Oh, Fd3m, D(6) or None) is not part of the claim.",
 "C160": "Fractional coordinates are compared in bins of width 1/3326400 modulo 1 (C160_offsets_cell: lattice translations do not matter).",
 "C161": "What holds is C161_inside_partial.",
 "C162": "The generators are assumed to return arrays of the requested shape with entries in the requested range. Fock spaces without largest occupation and the interpretation of a legacy first argument are not modelled.",
 "C163": "The probability is the fraction of draws u_k mod m, u_k uniform below a common multiple M of all m. Fock spaces with 1 < n_max < n_particles have no closed form and are not claimed.",
 "C164": "Refuted with explicit ratios of probabilities; what holds of the deprecated form is C164_legacy_partial.",
 "C165": "Numbers are exact; precision is not modelled. The axes of the sum are those of lax.dot_general: batch, free of the input, free of the kernel.",
 "C166": "linear.py:148-149 inserts the axes of the bias at the positions of the free axes in the input, which are those of the output only when the contracted axes are last. Without bias any consecutive axes work (C166_no_bias_partial).",
 "C167": "Spins are half-integers as documented. OneObject says that one function object computes one function.",
 "C168": "What CustomHilbert compares is stated exactly in C168_custom_partial.",
 "C169": "igraph is not part of the repository: that get_isomorphisms_vf2 returns exactly the colour-preserving automorphisms is the hypothesis hfound, and shortest_paths is modelled by breadth-first search.",
 "C170": "igraph returns inf for unreachable nodes; nothing in graph.py replaces it. A distance is given exactly to the nodes that can be reached (C170_connected_partial).",
 "C171": "Broadcasting of leaves with different shapes and the promoted dtype of tree_axpy are not modelled (the latter is an argument). Broadcast over MPI is modelled as giving every process the value of the root.",
 "C172": "A tree with an integer leaf and a complex leaf counts as homogeneous; tree_dot of trees without leaves raises TypeError; mpi_split uses process `root` of all processes whatever comm is. For trees of floating leaves tree_ishomogeneous is right (C172_homogeneous_partial).",
 "C173": "Parameters and gradients are vectors of complex numbers of one length; the casting errors of numpy for real parameters with complex gradients are not modelled. AdaMax for beta1 < 1 (beta1 = 1: C174).",
 "C174": "All clauses are refuted: decay factors below 1 raise ValueError and those above 1 are accepted; reset of AdaGrad and AdaDelta raises AttributeError; the factory AmsGrad ignores all its arguments; AdaDelta ignores l2reg; AdaMax with beta1 = 1 raises ZeroDivisionError; RmsProp divides by sqrt(s + epsilon); Sgd for jax machines ignores l2reg and decay_factor; Torch raises NameError; repr of a Wrap with a description raises TypeError.",
 "C175": "Log values are kept as their real parts (only these enter). The numpy kernels; the jax kernels and the custom kernel are not part of it. Replica exchange with an odd number of replicas: C176.",
 "C176": "Refuted: the correction of the Hamiltonian kernel is multiplied by machine_pow, so detailed balance holds between connected configurations iff machine_pow = 1 or they have equally many neighbours; the chain samples |psi|^p / n_conn^(p-1) (C176_hamiltonian_partial). samples() yields one array that later moves overwrite. n_chains = 0 is accepted (acceptance 0/0); setting n_chains fills the chains with zeros and leaves sample_shape, so generate_samples raises. MetropolisLocal can start from every configuration of local states whatever the constraint. For odd numbers of replicas the exchange probability of the pair (0,1) is not the ratio of weights; no replica is at beta = 0; setting n_replicas keeps the position of the old beta = 1 replica; one replica gives NaN statistics. ExactSampler.generate_samples draws from the distribution of the parameters at the last reset.",
 "C177": "Parameters as exact complex numbers; der_log of complex machines where no cosh vanishes. The torch and jax machines are not part of it.",
 "C178": "Refuted: sign(Re x) is 0 for a purely imaginary input, so the factor is 1 instead of cos; `out` lacks the visible bias (RBM and Jastrow); the 3d vector-Jacobian product raises ValueError unless the batches have length one; RbmMultiVal(automorphisms=False) raises RuntimeError; n_hidden is ignored with automorphisms; the visible bias of JastrowSymm is not symmetrised; RbmSpinPhase keeps the new amplitude parameters after a failed assignment, and alpha overrides alpha_a/alpha_p; to_array(normalize=False) is scaled by exp(-max Re log psi); to_array() of density matrices uses the Frobenius norm; to_matrix ignores normalize; log_trace exponentiates the sum and is too small for every matrix with at least two diagonal entries; automorphisms of density-matrix RBMs raise NameError; Diagonal.parameters has no setter.",
 "C179": "The solvers of scipy are arguments which solve every solvable system; tolerances and rounding are not modelled.",
 "C180": "Refuted: S is divided by the number vdot(diag, diag), so with one parameter of variance v the update is f/(1+shift v) instead of f/(v(1+shift)), for every v except 1; the forces of the caller are divided in place; the real dense matrix lacks the sum over processes and the broadcast result is dropped, so processes continue with different updates; Cholesky with real parameters solves the complex system and drops the imaginary part; with unequal numbers of samples the centring is wrong; the log-derivatives are centred before the ValueError of an SR without machine; repr raises TypeError for the default dense solver or with a threshold, and always says CG for iterative ones.",
 "C181": "Random numbers, samplers and the log-derivatives of the machine are arguments; MPI ranks as a list of lists; rounding is not modelled.",
 "C182": "Refuted: an iterator of loggers or callbacks is empty after the first turn, so later turns are not logged and cannot stop the run; a list of observables is a TypeError in the first turn for every driver with a loss; reset is an AttributeError after the sampler has been reset; a float number of iterations passes the check and fails in range; Qsr.n_samples is the number asked for; n_samples_data=0 is a NameError; SteadyState without sampler_obs has no observables, and n_discard_obs is ignored; with numpy optimizers real machines fail with SR and with Qsr.",
 "C183": "The linear solver is an argument which solves every regular system and keeps real systems real; such solvers are shown to exist. All processes have the same number of samples, as the samplers guarantee. Rounding is not modelled.",
 "C184": "Refuted: in modes real and complex the right-hand side is split to real and imaginary parts and the guess is not, so with any complex leaf the call is an exception (TypeError when rescaled, ValueError otherwise). Holds without guess, in mode holomorphic, and with real leaves only.",
 "C185": "Floats are exact numbers, NaN is a missing value; files are their contents (missing, incomplete, or a list of entries). Whether data can be encoded is a predicate on the data of an entry. Rounding and the generator of random numbers are not modelled.",
 "C186": "All clauses are refuted: the mean of unequal shards is the mean of the means; subtract_mean works in place; every unknown name gives None; the imaginary part of the mean and of all complex numbers is dropped; with c chains the gradient is c times the covariance and of the own samples only; on one process R_hat is always NaN; n_discard=0 becomes n_samples // 10; the file is emptied before the data are encoded; a dictionary used twice is logged twice with the last step; write_every=0 is a ZeroDivisionError of the first call; keys with a slash collide and fields of named tuples are logged by number; without a seed every process draws its own.",
 "C187": "One parameter at a time; automatic differentiation is the exact derivative. Connected configurations and matrix elements are one list of pairs.",
 "C188": "All clauses are refuted: operators without connected elements and empty batches are a ValueError or IndexError; BoseHubbard is padded with the empty configuration; weights lose their imaginary part without centering for real log-amplitudes; complex parameters with real log-amplitudes and matrix elements are a RuntimeError; the wrappers return the exception class, fail with a TypeError or read uninitialised memory; the edges of the second BoseHubbard operand are ignored and a graph with an isolated last node fails an assertion.",
 "C189": "Legacy machines and deprecation warnings are left out; the transition rule, the generator and the machine are arbitrary.",
 "C190": "All clauses are refuted: chains are rounded up, the comparison for the warning is of a number with itself, dtype is not passed on to the devices; zero, negative and missing numbers pass; replace keeps n_sweeps; pairs and graphs are not compared with the space; repr reads an attribute that does not exist; None * 100 is a TypeError.",
 "C191": "The complex Schur decomposition (scipy) is an argument with the properties of one; for rotations of space the eigenvector of the real eigenvalue is taken to be real, as computed.",
 "C192": "Elements of generic groups are an arbitrary type with product, canonical form and action.",
 "C193": "All clauses are refuted: a list is indexed with an array; a missing inverse is number 0; np.allclose(None, None) is a TypeError, and only the elements of the left group are compared; reduce of nothing and an integer of numpy are TypeErrors; the function of Grid reads the list pbc of the caller when it is first called.",
 "C194": "Serialization is an arbitrary pair of functions with parse(ser v) = v; lists and custom classes in variables are not modelled, only dictionaries.",
 "C195": "jax.lax is modelled from its documentation; dtypes and initializers are not part of this model.",
 "C196": "The diagonal element is written once with its final value; numbers up to 2^53 in float64.",
 "C197": "After get_conn_flattened of two or more samples of a dtype on a new object, get_conn returns that dtype, and a sample with larger occupations comes back changed. Values agree between histories whose dtypes hold the occupations.",
 "C198": "jax.jit is modelled from its documentation: compiled functions are looked up by static arguments and shapes; operators are compared by identity.",
 "C199": "After `ha += other`, chains already compiled go on proposing with the old matrix. Chains of another length use the new one.",
 "C200": "Special methods of object are not part of the list of names.",
 "C201": "copy.copy, copy.deepcopy and pickle.loads end in a RecursionError for every history, because __getattr__ reads an attribute that the new object does not have yet. A dictionary without main value has no values; columns named like methods are hidden.",
 "C202": "One chain with exact real arithmetic and independent uniform draws; the chains of a batch are shown to act independently in C44. Convergence is of the law (and of its time averages), not almost-sure convergence of one realisation.",
 "C203": "For spins 1/2 (or any two local values) with constant |psi| every flip is accepted, so an even n_sweeps (the default is hilbert.size) conserves the parity of the number of up spins in all samples of a chain. Exchange moves conserve the multiset of local values, so boson spaces with a fixed total are not explored. C203_local_partial gives the exact condition for local moves.",
 "C204": "Expected values over exact trajectories with the probabilities of C44's kernels; mean-square convergence, not almost-sure. C204_gradient is for any sampler with these estimates (C204_local, C204_exchange, C204_hamiltonian) and log-amplitudes holomorphic in the parameter.",
 "C205": "Draws are independent and have the measure of the uniform numbers they are made of (C49_probability, C51_probability); the rounding of choice at 1 is in C49/C51.",
 "C206": "Machines are functions of their arrays; jax's derivatives enter as given Jacobians. The value of the MPS network is C206_mps_value; that it is used as the logarithm of the amplitude is in C207.",
 "C207": "Refuted: logcosh has the value log 1 on the imaginary axis (C207_imaginary_refuted), so NdmSpin without biases is not positive (C207_ndm_positive_refuted, a family of weights on two spins) and its mixing part is missing between opposite configurations; NdmSpinPhase(use_hidden_bias=False) is a TypeError; log_val of MPSPeriodic is the trace, not its logarithm; return_jacobian=True conjugates for real parameters; mat_vec has an additional rank-one term for real parameters with complex output; DenseReal starts with equal real and imaginary weights; gmres, minres and jaxcg raise; too long vectors are accepted. What holds instead: C207_imaginary_partial, C207_ndm_positive_partial, C207_unflatten_partial.",
 "C208": "The kernel object with its two buffers is explicit; random numbers are arguments. Operators with a constant are in C209.",
 "C209": "Refuted: a float array of weights is normalised in place (C209_weights_refuted); an operator with a constant of at least one is accepted and never moves (C209_constant_refuted); the sum of two moves on one site is a single matrix with row sums two, AssertionError (C209_support_refuted). What holds: all other arrays are unchanged (C209_arrays_partial).",
 "C210": "The module is a function of its differentiable parameters with two real outputs; autograd computes derivatives.",
 "C211": "Refuted: log_val of a vector is an array with one entry; TorchLogCosh is log cosh x + log 2 below the threshold of softplus and x above. Bounds on its value: C211_log_cosh_partial.",
 "C212": "Arrays are shapes with entries; dtypes and pointers are left out. jax's vmap and lax.map are modelled as documented by jax.",
 "C213": "Refuted: more than four inputs or outputs cannot be compiled (C213_compiled_refuted); with different numbers of inputs and outputs vmap is an AssertionError (C213_vmap_count_refuted); with one array it is an AssertionError, or lacks the batch axis (C213_vmap_single_refuted); unmapped arguments are consumed row by row (C213_unmapped_refuted); the first axis is used instead of the second (C213_axis_refuted).",
 "C214": "Functions of the model are arbitrary; jax's keys are an arbitrary type with split.",
 "C215": "Refuted: with a model both functions are ignored (C215_ignored_refuted); without haiku installed any unknown model is a ModuleNotFoundError, since is_loaded is never asked (C215_unknown_refuted); the registered function returns the object to be restored (C215_haiku_load_refuted). What holds: C215_unknown_partial.",
 "C216": "Values of fields are arbitrary; class definitions python refuses are left out.",
 "C217": "Refuted: a cached property with super().p always ends in a RecursionError (C217_super_refuted); a positional argument too many becomes the value of the first cached property (C217_positional_refuted); replace of a PGSymmetry is always a TypeError (C217_symmetry_refuted). What holds: C217_super_partial.",
 "C218": "Local values are arbitrary complex functions of the configuration; gradients are the subject of C02, C124 and others.",
 "C219": "Refuted: for squares of superoperators R_hat is NaN on one rank (C219_lrho2_refuted), mean and variance are right (C219_lrho2_partial); with is_hermitian=False the statistics are those of O (C219_parent_refuted); n_chains is the length of the chains (C219_n_chains_refuted); NotImplemented for operators on the physical space (C219_physical_refuted).",
 "C220": "Composition of the models of local values, statistics, gradients and the quantum geometric tensor; exact arithmetic.",
 "C221": "Exceptions of the forward pass, the progress bar and callbacks which change the driver are not modelled; statistics are abstract values.",
 "C222": "Refuted clauses are proved for all such inputs; the part that holds is C221 and C222_dict_partial (named observables).",
 "C223": "The semantics of optax (not in the repository) is part of the trusted base; exact real arithmetic, one parameter.",
 "C224": "Refuted for all inputs; the part that holds: AdaGrad with initial_accumulator_value = 0, Momentum with rescaled learning rate (C223).",
 "C225": "Composition of the models of local values and of the NDM; exact arithmetic; entries of the density matrix that vanish (logarithm minus infinity) are outside.",
 "C226": "Composition of the model of LocalLiouvillian.get_conn_flattened with local values over the full doubled space; the Monte Carlo average is that of C218; exact arithmetic.",
 "C227": "Matrix elements of the models of get_conn (Ising, BoseHubbard) and of LocalOperator (GraphOperator, Heisenberg); automorphisms as characterised by C169 (igraph's search is a hypothesis there).",
 "C228": "The conjugation, stoquasticity and rotation clauses are proved; the documented wording, a flip of Sz on one sublattice, is refuted: it is a rotation by pi around z (C228_flip_refuted). graph.is_bipartite is igraph's answer, given as an argument; a two-colouring is a hypothesis.",
 "C229": "scipy.sparse.linalg.eigsh, numpy.linalg.eigh and eigvalsh are arguments with their documented behaviour as hypothesis (scipy_exists and numpy_exists show that it can be met); exact arithmetic.",
 "C230": "bicgstab is an argument; its result is assumed to solve the equations exactly. Broadcasting of a rho0 with a single entry is not modelled; printing is not modelled.",
 "C231": "Exact arithmetic; the solver's result is assumed to solve the system (C65_solve relates the representations). The samples need not represent |psi|² exactly.",
 "C232": "Exact arithmetic (the cutoff discards exactly the zeros). Operators that do leave the constrained space are C108.",
 "C233": "Attributes that python adds by itself are not counted. Hypothesis: no attribute with the empty name.",
 "C234": "Violated: a private submodule _a is lost if there is a public a; dir lists private names that the shims refuse; a module without exported names cannot be listed.",
 "C235": "Exact real arithmetic; jit is the lookup of an equal static argument.",
 "C236": "Violated: HashablePartial compares the code of the lambda but not the sampler in its closure, so that machine_pow is ignored.",
 "C237": "tree_flatten is the list of leaves.",
 "C238": "Violated for updates that are too long.",
 "C239": "Exact arithmetic; square roots are an arbitrary function with which the documented matrix is written. Buffers shared between calls are C196 and C197.",
 "C240": "White space is ASCII, line ends are newline characters, int(_, 16) without signs, underscores and prefixes; int of Python is an arbitrary function.",
 "C241": "Refuted: None without the line or with an empty mask; strip removes all white space at both ends; KeyError without flags (ARM); the key of AVX2 is misspelt (hw.optionxwal.avx2_0), and AVX in the last line is missed because the output is stripped; indentations above 9 raise. Proved in the _partial theorems: exact conditions, AVX before any other character.",
 "C242": "textwrap.dedent and the texts of long messages are parameters; Fock behind the first line is an arbitrary function. Warnings shown only once per location count each time.",
 "C243": "Refuted: N=1 given next to a graph is ignored; with any solver option SRLazyCG/SRLazyGMRES take the old-API path: the class QGTOnTheFly becomes the diagonal shift, the tensor is chosen automatically, the solver is CG, and the option reaches the tensor's constructor, a TypeError; logtanh and logsinh point to log_cosh. Proved in the _partial theorems: exact results.",
 "C244": "Keys and random numbers are arbitrary functions of the key; floats exact; XLA compilation is not modelled, apart from Python values being fixed when random_state is traced. The acceptance counters of the JAX sampler are never updated and the buffer argument samples is ignored: not part of the claim.",
 "C245": "Refuted: the exchange kernel's random_state calls hilbert.random_state() while being traced, so that all chains and all later resets have the same configuration; setting n_chains to another number raises AssertionError after changing the attribute and the states; generate_samples(0, True) returns None without reset; sweep_size 0 is accepted and a negative one stored, and no moves are made; Hamiltonian, custom and tempering samplers raise NotImplementedError for JAX machines. Proved in the _partial theorems: exact results.",
 "C246": "log10 and the products are exact; negative zero is not modelled.",
 "C247": "Refuted: for errors up to 1e-7 only four digits of the mean are written, e.g. 1.000e+04 for 10000.5 with error 1e-8. Proved in the _partial theorem: the text is within a 2000th of the mean.",
 "C248": "over exact complex numbers; expectation over finitely many outcomes per chain",
 "C249": "refuted: the code divides by the total variance instead of W; with x = B/W it gives sqrt((C-1)/C + x/(1+x)), never above the ratio, equal to it only if all chains have the same mean; chains which never move give sqrt(2 - 1/C)",
 "C250": "The text of the JSON value and arrays of dtype object are not modelled.",
 "C251": "Refuted: columns of two or more dimensions are a TypeError and the file, opened for writing before, is left empty; NaN and infinities are all written as null; scalars of numpy and large integers are a TypeError. The part that holds is C250.",
 "C252": "The samples are assumed to represent |psi|^2 exactly (as for an exact sampler in the limit, or FullSumState); statistical fluctuations are not part of the claim. The transformations of optax are trusted as documented. Adam and Momentum with a history need not descend (C252_momentum_history).",
 "C253": "The samples are assumed to represent |rho|^2 exactly; statistical fluctuations are not part of the claim. Other optimizers are not covered.",
 "C254": "Refuted: the average derivative is averaged over the processes and then summed once more. For the dephasing of one spin on four processes every update of Sgd, whatever the learning rate, raises the cost. The exact gradient on n processes is given by C254_gradient_partial; on one process the claim holds (C253).",
 "C255": "About exact solutions of the linear system; the iterative solvers of jax are not modelled.",
 "C256": "Deviation: p - q raises TypeError whenever q is a wrapper (C256_sub_refuted; C256_sub_wrapper_partial: for every p), because LocalOperator.__sub__ negates q first and wrappers have no __neg__; -A.H and A.H / c raise as well (C256_neg_div_refuted). Sums, products and numbers hold without restriction (C256_add, C256_mul, C256_numbers); differences with a concrete right operand hold (C256_sub_partial).",
 "C257": "Adjoint, transpose and O†O are right whenever is_hermitian is right, which is proved for PauliStrings and for Ising with real parameters. Refuted: Ising with complex h claims to be hermitian, so o.H is o and o @ o is evaluated as O†O (1 instead of -1 for h=1j); P @ P raises TypeError for Pauli strings that are not hermitian; conjugate() and T.H raise NotImplementedError except for Ising with Python floats, T.collect() and Adjoint.collect() always.",
 "C258": "igraph's two searches are modelled as breadth-first searches; igraph's answer for a graph without nodes depends on its version and is left open.",
 "C259": "The grid that is a single open point is rejected by the constructor (C115).",
 "C260": "C52 says on which sites the outputs may depend; C119 the case of chains shorter than the dilation, for which the number of output sites is wrong."
}
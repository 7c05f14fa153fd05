{
 "claims": [
  {
   "property": "C01",
   "status": "proved",
   "theorems": [
    "Verif.Hilbert.C01_homogeneous_indexing",
    "Verif.Hilbert.C01_n_states"
   ],
   "note": ""
  },
  {
   "property": "C02",
   "status": "proved",
   "theorems": [
    "Verif.Hilbert.C02_all_states",
    "Verif.Hilbert.C02_constrained_indexing"
   ],
   "note": "What happens to violating configurations is C100."
  },
  {
   "property": "C03",
   "status": "proved",
   "theorems": [
    "Verif.Hilbert.C03_tensor_indexing",
    "Verif.Hilbert.C03_tensor_mixed_radix"
   ],
   "note": ""
  },
  {
   "property": "C04",
   "status": "proved",
   "theorems": [
    "Verif.Hilbert.C04_doubled_indexing",
    "Verif.Hilbert.C04_doubled_index",
    "Verif.Hilbert.C04_doubled_halves",
    "Verif.Hilbert.C04_size_at_index"
   ],
   "note": "The attribute `shape` is C101."
  },
  {
   "property": "C05",
   "status": "proved",
   "theorems": [
    "Verif.Hilbert.C05_rejection"
   ],
   "note": "Negative numbers are C100."
  },
  {
   "property": "C06",
   "status": "proved",
   "theorems": [
    "Verif.Flip.C06_qubit_local",
    "Verif.Flip.C06_spin_local",
    "Verif.Flip.C06_fock_local",
    "Verif.Flip.C06_custom_local",
    "Verif.Flip.C06_homogeneous_flip",
    "Verif.Flip.C06_doubled_homogeneous_flip",
    "Verif.Flip.C06_tensor_flip"
   ],
   "note": "Unsorted CustomHilbert and doubled products are C102."
  },
  {
   "property": "C07",
   "status": "proved",
   "theorems": [
    "Verif.RandomState.C07_fock_random_state",
    "Verif.RandomState.C07_spin_random_state",
    "Verif.RandomState.C07_spin_half_random_state",
    "Verif.RandomState.C07_spin_unconstrained"
   ],
   "note": ""
  },
  {
   "property": "C08",
   "status": "proved",
   "theorems": [
    "Verif.HilbertAlgebra.C08_ptrace",
    "Verif.HilbertAlgebra.C08_ptrace_succeeds",
    "Verif.HilbertAlgebra.C08_ptrace_rejects"
   ],
   "note": "Repeated sites are C100."
  },
  {
   "property": "C09",
   "status": "proved",
   "theorems": [
    "Verif.HilbertAlgebra.C09_n_states",
    "Verif.HilbertAlgebra.C09_pow",
    "Verif.HilbertAlgebra.C09_mul",
    "Verif.HilbertAlgebra.C09_recursion_harmless",
    "Verif.HilbertAlgebra.C09_mul_succeeds"
   ],
   "note": "Combinations that cannot be expressed are C100."
  },
  {
   "property": "C10",
   "status": "proved",
   "theorems": [
    "Verif.LocalOp.C10_get_conn_constructed",
    "Verif.LocalOp.C10_get_conn_user_terms",
    "Verif.LocalOp.C10_get_conn_reachable",
    "Verif.LocalOp.C10_connected_valid"
   ],
   "note": ""
  },
  {
   "property": "C11",
   "status": "proved",
   "theorems": [
    "Verif.LocalOp.C11_acting_on_order"
   ],
   "note": "Different local dimensions are C103."
  },
  {
   "property": "C12",
   "status": "proved",
   "theorems": [
    "Verif.LocalOp.C12_add",
    "Verif.LocalOp.C12_iadd",
    "Verif.LocalOp.C12_sub",
    "Verif.LocalOp.C12_add_scalar",
    "Verif.LocalOp.C12_scalar_mul",
    "Verif.LocalOp.C12_add_connected",
    "Verif.LocalOp.C12_transpose",
    "Verif.LocalOp.C12_conjugate"
   ],
   "note": ""
  },
  {
   "property": "C13",
   "status": "proved",
   "theorems": [
    "Verif.LocalOp.C13_product",
    "Verif.LocalOp.C13_inplace_product"
   ],
   "note": "Different local dimensions are C103."
  },
  {
   "property": "C14",
   "status": "proved",
   "theorems": [
    "Verif.LocalOp.C14_copy_like",
    "Verif.LocalOp.C14_add",
    "Verif.LocalOp.C14_scalar_mul",
    "Verif.LocalOp.C14_iadd_unshared"
   ],
   "note": "Other in-place operations and the constructor are C104."
  },
  {
   "property": "C15",
   "status": "proved",
   "theorems": [
    "Verif.LocalOp.C15_is_hermitian",
    "Verif.Pauli.C15_pauli_hermitian"
   ],
   "note": "Complex scalars and constants are C105."
  },
  {
   "property": "C16",
   "status": "proved",
   "theorems": [
    "Verif.LocalOp.C16_to_sparse",
    "Verif.LocalOp.C16_transpose",
    "Verif.LocalOp.C16_T",
    "Verif.LocalOp.C16_conj",
    "Verif.LocalOp.C16_H",
    "Verif.LocalOp.C16_collect",
    "Verif.LocalOp.C16_matmul"
   ],
   "note": "The exceptions are C106."
  },
  {
   "property": "C17",
   "status": "proved",
   "theorems": [
    "Verif.Ham.C17_bose_padding",
    "Verif.LocalOp.C17_padding",
    "Verif.LocalOp.C17_max_conn_size",
    "Verif.Pauli.C17_pauli_padding"
   ],
   "note": "The bound for constants and after multiplication with zero is C107."
  },
  {
   "property": "C18",
   "status": "proved",
   "theorems": [
    "Verif.Ham.C18_bose_batches",
    "Verif.Ham.C18_ising_batches",
    "Verif.LocalOp.C18_batch_is_concatenation",
    "Verif.LocalOp.C18_n_conn",
    "Verif.Pauli.C18_pauli_batches"
   ],
   "note": ""
  },
  {
   "property": "C19",
   "status": "proved",
   "theorems": [
    "Verif.Pauli.C19_pauli_to_dense",
    "Verif.Sparse.C19_to_dense",
    "Verif.Sparse.C19_apply",
    "Verif.Sparse.C19_local_operator"
   ],
   "note": "Operators leaving a constrained space are C108."
  },
  {
   "property": "C20",
   "status": "proved",
   "theorems": [
    "Verif.Pauli.C20_pauli_strings",
    "Verif.Pauli.C20_connected_valid"
   ],
   "note": ""
  },
  {
   "property": "C21",
   "status": "proved",
   "theorems": [
    "Verif.Ham.C21_get_conn",
    "Verif.Ham.C21_n_conn",
    "Verif.Ham.C21_to_local_operator"
   ],
   "note": "Row sums, count, batches and the conversion to LocalOperator proved for every graph (multi-edges and self loops included)."
  },
  {
   "property": "C22",
   "status": "proved",
   "theorems": [
    "Verif.Ham.C22_get_conn",
    "Verif.Ham.C22_get_conn_is_kernel",
    "Verif.Ham.C22_conserves",
    "Verif.Ham.C22_max_conn_size",
    "Verif.Ham.C22_symmetric"
   ],
   "note": "The LocalOperator conversion is C109."
  },
  {
   "property": "C23",
   "status": "proved",
   "theorems": [
    "Verif.Liou.C23_get_conn_flattened",
    "Verif.Liou.C23_hermitian_generator",
    "Verif.Liou.C23_trace_zero",
    "Verif.Liou.C23_hermiticity",
    "Verif.Liou.C23_add_jump_operators",
    "Verif.Liou.C23_get_conn"
   ],
   "note": "What happens otherwise is C110."
  },
  {
   "property": "C24",
   "status": "partial",
   "theorems": [
    "Verif.Ham.C24_matmul_order_partial",
    "Verif.Ham.C24_reflected_is_swapped",
    "Verif.Ham.C24_matmul_order_refuted",
    "Verif.Ham.C24_product_of_hamiltonians_refuted"
   ],
   "note": "H @ B proved; B @ H is refuted (computed as H @ B) and H1 @ H2 raises TypeError."
  },
  {
   "property": "C25",
   "status": "proved",
   "theorems": [
    "Verif.Ham.C25_graph_operator",
    "Verif.Ham.C25_rejects",
    "Verif.Ham.C25_heisenberg",
    "Verif.Ham.C25_heisenberg_sign_rule"
   ],
   "note": "Site operators alone, several uncoloured bond operators and shared arrays are C111."
  },
  {
   "property": "C26",
   "status": "proved",
   "theorems": [
    "Verif.Hist.C26_append",
    "Verif.Hist.C26_accum_histories",
    "Verif.Hist.C26_slice",
    "Verif.Hist.C26_slice_window",
    "Verif.Hist.C26_slice_bounds",
    "Verif.Hist.C26_slice_open",
    "Verif.Hist.C26_slice_reversed",
    "Verif.Hist.C26_getitem",
    "Verif.Hist.C26_getitem_out_of_range",
    "Verif.Hist.C26_concat",
    "Verif.Hist.C26_concat_rejects",
    "Verif.Hist.C26_accum_in_tree",
    "Verif.Hist.C26_runtime_log"
   ],
   "note": "Other items are C112."
  },
  {
   "property": "C27",
   "status": "proved",
   "theorems": [
    "Verif.Log.C27_log_file",
    "Verif.Log.C27_flush",
    "Verif.Log.C27_param_file",
    "Verif.Log.C27_new_log",
    "Verif.Log.C27_modes",
    "Verif.Log.C27_zero_elapsed"
   ],
   "note": "Every property of the files proved for all sequences of calls and flushes, with clock readings as arguments; serialisation is a parameter."
  },
  {
   "property": "C28",
   "status": "partial",
   "theorems": [
    "Verif.Log.C28_truncated_refuted",
    "Verif.Log.C28_crash_states",
    "Verif.Log.C28_unserialisable_refuted",
    "Verif.Log.C28_outside_flush_partial"
   ],
   "note": "Refuted: the log file is truncated and rewritten in place. Proved: the states a crash can leave, and that nothing is lost outside of a flush."
  },
  {
   "property": "C29",
   "status": "proved",
   "theorems": [
    "Verif.Log.C29_write",
    "Verif.Log.C29_append",
    "Verif.Log.C29_fail"
   ],
   "note": "Assumes that no call has a step one less than the call before. Append on an empty target and fail with tar are C113."
  },
  {
   "property": "C30",
   "status": "proved",
   "theorems": [
    "Verif.Driver.C30_run",
    "Verif.Driver.C30_updates",
    "Verif.Driver.C30_advance",
    "Verif.Driver.C30_zero_step"
   ],
   "note": "That run performs exactly n_iter updates is C114."
  },
  {
   "property": "C31",
   "status": "proved",
   "theorems": [
    "Verif.Driver.C31_exact"
   ],
   "note": "The documented meaning of min_delta is C114."
  },
  {
   "property": "C32",
   "status": "proved",
   "theorems": [
    "Verif.Driver.C32_answers",
    "Verif.Driver.C32_stays_stopped",
    "Verif.Driver.C32_reset",
    "Verif.Driver.C32_rejects"
   ],
   "note": "All sequences of calls and clock readings."
  },
  {
   "property": "C33",
   "status": "partial",
   "theorems": [
    "Verif.Driver.C33_starts_partial",
    "Verif.Driver.C33_documented_refuted"
   ],
   "note": "The code does the opposite of its documentation; refuted and exact behaviour proved."
  },
  {
   "property": "C34",
   "status": "proved",
   "theorems": [
    "Verif.Lat.C34_numbering",
    "Verif.Lat.C34_grid",
    "Verif.Lat.C34_position",
    "Verif.Lat.C34_position_sound",
    "Verif.Lat.C34_position_single_atom"
   ],
   "note": "Proved for all lattices in which every site has a neighbour at the smallest distance (others lose sites, C37), with Grid as an instance. Position lookup proved for distinct keys and, for one atom per cell, with fewer than 3326400 cells per axis. Positions are exact fractional coordinates instead of floats."
  },
  {
   "property": "C35",
   "status": "proved",
   "theorems": [
    "Verif.Lat.C35_grid_edges"
   ],
   "note": "Distances are exact integers instead of floats rounded to bins. A single open site is C115."
  },
  {
   "property": "C36",
   "status": "proved",
   "theorems": [
    "Verif.Grf.C36_coloured",
    "Verif.Grf.C36_color_argument",
    "Verif.Grf.C36_uncoloured",
    "Verif.Grf.C36_accepts",
    "Verif.Grf.C36_adjacency",
    "Verif.Grf.C36_edgeless",
    "Verif.Grf.C36_wf"
   ],
   "note": "igraph itself is assumed (stated in Model/Graph.lean). DoubledGraph is C115."
  },
  {
   "property": "C37",
   "status": "partial",
   "theorems": [
    "Verif.Lat.C37_all_sites_partial",
    "Verif.Lat.C37_grid",
    "Verif.Lat.C37_lost_sites_refuted"
   ],
   "note": "Refuted: sites without a neighbour at the smallest distance are dropped. Proved when every site has one, and for Grid."
  },
  {
   "property": "C38",
   "status": "proved",
   "theorems": [
    "Verif.Grp.C38_permutation",
    "Verif.Grp.C38_product_acts",
    "Verif.Grp.C38_bracketing",
    "Verif.Grp.C38_product_exists",
    "Verif.Grp.C38_group_product",
    "Verif.Grp.C38_canonical"
   ],
   "note": "Identity() @ Composite is C116."
  },
  {
   "property": "C39",
   "status": "proved",
   "theorems": [
    "Verif.Grp.C39_inverse",
    "Verif.Grp.C39_product_table",
    "Verif.Grp.C39_closed",
    "Verif.Grp.C39_unclosed"
   ],
   "note": "Proved for PermutationGroup: canonical arrays, last-key-wins dictionary, RuntimeError for an unclosed set."
  },
  {
   "property": "C40",
   "status": "proved",
   "theorems": [
    "Verif.Grp.C40_first_occurrences",
    "Verif.Grp.C40_distinct",
    "Verif.Grp.C40_inverse_sorted"
   ],
   "note": "That they reconstruct the list is C116."
  },
  {
   "property": "C41",
   "status": "proved",
   "theorems": [
    "Verif.Grp.C41_conjugacy_table",
    "Verif.Grp.C41_classes",
    "Verif.Grp.C41_disjoint",
    "Verif.Grp.C41_class_of",
    "Verif.Grp.C41_permutations"
   ],
   "note": "For every table of g^-1 h of a finite list of distinct elements of a group; instances: permutation groups (C41_permutations) and point groups without a unit cell (C42_conjugacy)."
  },
  {
   "property": "C42",
   "status": "proved",
   "theorems": [
    "Verif.PGrp.C42_constructor",
    "Verif.PGrp.C42_product",
    "Verif.PGrp.C42_assoc",
    "Verif.PGrp.C42_preimage",
    "Verif.PGrp.C42_k_action",
    "Verif.PGrp.C42_change_origin",
    "Verif.PGrp.C42_change_origin_product",
    "Verif.PGrp.C42_elements",
    "Verif.PGrp.C42_group_change_origin",
    "Verif.PGrp.C42_inverse",
    "Verif.PGrp.C42_inverse_exists",
    "Verif.PGrp.C42_product_table",
    "Verif.PGrp.C42_unclosed",
    "Verif.PGrp.C42_closed",
    "Verif.PGrp.C42_conjugacy"
   ],
   "note": "Exact field instead of floats; the rounding of comparable is replaced by canonical forms that are faithful up to lattice translations (hypothesis Faithful, satisfied in the examples)."
  },
  {
   "property": "C43",
   "status": "partial",
   "theorems": [
    "Verif.PGrp.C43_index",
    "Verif.PGrp.C43_embeds_partial",
    "Verif.PGrp.C43_divide",
    "Verif.PGrp.C43_complex_refuted"
   ],
   "note": "Complex characters lose their imaginary parts (refuted with the table of C4); real tables proved. The character table itself (numpy.linalg.eig) is an argument."
  },
  {
   "property": "C44",
   "status": "proved",
   "theorems": [
    "Verif.Metro.C44_sweep_row",
    "Verif.Metro.C44_cache",
    "Verif.Metro.C44_cache_start",
    "Verif.Metro.C44_detailed_balance",
    "Verif.Metro.C44_stationary",
    "Verif.Metro.C44_samples_pow",
    "Verif.Metro.C44_local_balanced",
    "Verif.Metro.C44_local",
    "Verif.Metro.C44_floor_uniform",
    "Verif.Metro.C44_fock_flip",
    "Verif.Metro.C44_spin_flip",
    "Verif.Metro.C44_spin_half_flip",
    "Verif.Metro.C44_custom_flip",
    "Verif.Metro.C44_flip_row",
    "Verif.Metro.C44_exchange_balanced",
    "Verif.Metro.C44_exchange",
    "Verif.Metro.C44_numpy_accept",
    "Verif.Metro.C44_numpy_cache"
   ],
   "note": "Row and cache theorems about the vectorised sweep of MetropolisSampler; kernels as measures of the uniform number; exp/log exact. Unsorted local states are C102, the numpy sampler without reset C117."
  },
  {
   "property": "C45",
   "status": "proved",
   "theorems": [
    "Verif.Metro.C45_perm",
    "Verif.Metro.C45_swap",
    "Verif.Metro.C45_sum",
    "Verif.Metro.C45_clusters",
    "Verif.Metro.C45_chain",
    "Verif.Metro.C45_exchange_chain"
   ],
   "note": "User-supplied clusters are C118."
  },
  {
   "property": "C46",
   "status": "proved",
   "theorems": [
    "Verif.Metro.C46_accepted_moves",
    "Verif.Metro.C46_n_steps",
    "Verif.Metro.C46_reset_zero",
    "Verif.Metro.C46_accepted_le",
    "Verif.Metro.C46_accumulate",
    "Verif.Metro.C46_reset_chains",
    "Verif.Metro.C46_acceptance_range",
    "Verif.Metro.C46_accepted_counts"
   ],
   "note": "The numpy sampler is C117."
  },
  {
   "property": "C47",
   "status": "proved",
   "theorems": [
    "Verif.Metro.C47_split",
    "Verif.Metro.C47_generator",
    "Verif.Metro.C47_iterate",
    "Verif.Metro.C47_metropolis_split"
   ],
   "note": "The numpy sampler is C117, the exact sampler and module-level functions C118."
  },
  {
   "property": "C48",
   "status": "proved",
   "theorems": [
    "Verif.VState.C48_chains",
    "Verif.VState.C48_chains_args",
    "Verif.VState.C48_samples",
    "Verif.VState.C48_samples_invalid",
    "Verif.VState.C48_per_rank_setter",
    "Verif.VState.C48_consistent",
    "Verif.VState.C48_make_consistent"
   ],
   "note": "Reading back the chain length and samples per rank, and assigning samplers, is C120."
  },
  {
   "property": "C49",
   "status": "proved",
   "theorems": [
    "Verif.AutoReg.C49_pdf",
    "Verif.AutoReg.C49_scale",
    "Verif.AutoReg.C49_probability",
    "Verif.AutoReg.C49_support",
    "Verif.AutoReg.C49_sample",
    "Verif.AutoReg.C49_keys"
   ],
   "note": "Distribution as the measure of the uniform number; exact log-amplitudes. sample_next without a state is C118."
  },
  {
   "property": "C50",
   "status": "proved",
   "theorems": [
    "Verif.AutoReg.C50_range",
    "Verif.AutoReg.C50_interval",
    "Verif.AutoReg.C50_value",
    "Verif.AutoReg.C50_probability"
   ],
   "note": "Over an ordered field and as a Lebesgue measure. The number 0 is C118."
  },
  {
   "property": "C51",
   "status": "proved",
   "theorems": [
    "Verif.AutoReg.C51_conditional",
    "Verif.AutoReg.C51_product",
    "Verif.AutoReg.C51_normalised",
    "Verif.AutoReg.C51_sample_site",
    "Verif.AutoReg.C51_sample_iff",
    "Verif.AutoReg.C51_probability",
    "Verif.AutoReg.C51_spin_number",
    "Verif.AutoReg.C51_fock_number",
    "Verif.AutoReg.C51_arnn_dense"
   ],
   "note": "exp/log exact. machine_pow is C118."
  },
  {
   "property": "C52",
   "status": "proved",
   "theorems": [
    "Verif.AutoReg.C52_dense",
    "Verif.AutoReg.C52_conv1d",
    "Verif.AutoReg.C52_conv2d",
    "Verif.AutoReg.C52_conv2d_width",
    "Verif.AutoReg.C52_stack",
    "Verif.AutoReg.C52_arnn_dense"
   ],
   "note": "The number of outputs for dilations above the chain length is C119."
  },
  {
   "property": "C53",
   "status": "proved",
   "theorems": [
    "Verif.Metro.C53_n_conn",
    "Verif.Metro.C53_transition",
    "Verif.Metro.C53_uniform",
    "Verif.Metro.C53_balanced",
    "Verif.Metro.C53_stationary"
   ],
   "note": "Other operators are C118."
  },
  {
   "property": "C54",
   "status": "proved",
   "theorems": [
    "Verif.Stats.C54_sum",
    "Verif.Stats.C54_mean",
    "Verif.Stats.C54_total_size",
    "Verif.Stats.C54_var",
    "Verif.Stats.C54_subtract_mean",
    "Verif.Stats.C54_mean_axis",
    "Verif.Stats.C54_centred",
    "Verif.Stats.C54_unequal_differ",
    "Verif.Stats.C54_statistics"
   ],
   "note": "C54_unequal_differ shows that the hypothesis is needed."
  },
  {
   "property": "C55",
   "status": "partial",
   "theorems": [
    "Verif.ToArray.C55_result",
    "Verif.ToArray.C55_ranks_partial",
    "Verif.ToArray.C55_divides",
    "Verif.ToArray.C55_norm",
    "Verif.ToArray.C55_iff",
    "Verif.ToArray.C55_ranks_refuted",
    "Verif.ToArray.C55_error_refuted",
    "Verif.ToArray.C55_unnormalised",
    "Verif.ToArray.C55_matrix"
   ],
   "note": "Refuted in general: padding may put fake states on ranks other than the last one (5 states, 4 ranks) or produce an error (2 states, 5 ranks). Proved when all padding falls on the last rank, in particular when the number of ranks divides the number of states; C55_iff characterises the failure."
  },
  {
   "property": "C56",
   "status": "proved",
   "theorems": [
    "Verif.VState.C56_valid_step",
    "Verif.VState.C56_valid",
    "Verif.VState.C56_samples",
    "Verif.VState.C56_mixed_valid"
   ],
   "note": "The chain length of cached samples is C120."
  },
  {
   "property": "C57",
   "status": "proved",
   "theorems": [
    "Verif.VState.C57_step",
    "Verif.VState.C57_synced",
    "Verif.VState.C57_assign"
   ],
   "note": "Invariant over all sequences of calls from the constructor on."
  },
  {
   "property": "C58",
   "status": "partial",
   "theorems": [
    "Verif.VState.C58_restore_partial",
    "Verif.VState.C58_restore_refuted",
    "Verif.VState.C58_mixed_restore_partial",
    "Verif.VState.C58_mixed_original_refuted",
    "Verif.VState.C58_mixed_original_partial"
   ],
   "note": "Proved for consistent states restored into a state with the same sampler. Refuted after a change of sampler, and the original mixed state loses the cached samples of its diagonal."
  },
  {
   "property": "C59",
   "status": "proved",
   "theorems": [
    "Verif.Vjp.C59_covariance",
    "Verif.Vjp.C59_shards",
    "Verif.Vjp.C59_shift",
    "Verif.Vjp.C59_gradient_complex"
   ],
   "note": "Real parameters and Lrho2 are C121."
  },
  {
   "property": "C60",
   "status": "partial",
   "theorems": [
    "Verif.VState.C60_sample_partial",
    "Verif.VState.C60_sample_zero_partial",
    "Verif.VState.C60_length",
    "Verif.VState.C60_sample_refuted",
    "Verif.VState.C60_n_discard"
   ],
   "note": "Refuted when the stored number is zero: the explicit argument is ignored. Proved otherwise."
  },
  {
   "property": "C61",
   "status": "proved",
   "theorems": [
    "Verif.Symm.C61_formula",
    "Verif.Symm.C61_equivariant",
    "Verif.Symm.C61_rbm_invariant",
    "Verif.Symm.C61_rbm_value",
    "Verif.Symm.C61_features"
   ],
   "note": "DenseSymmMatrix (mode='matrix'/'auto' for groups) and RBMSymm, any kernel, bias, mask, activation. FFT mode is C84."
  },
  {
   "property": "C62",
   "status": "proved",
   "theorems": [
    "Verif.Symm.C62_matrix_formula",
    "Verif.Symm.C62_matrix_mask",
    "Verif.Symm.C62_matrix_equivariant",
    "Verif.Symm.C62_gcnn_character",
    "Verif.Symm.C62_gcnn_invariant",
    "Verif.Symm.C62_permutation_group",
    "Verif.Symm.C62_irrep_formula",
    "Verif.Symm.C62_irrep_mask",
    "Verif.Symm.C62_irrep_equivariant",
    "Verif.Symm.C62_modes_agree",
    "Verif.Symm.C62_layout"
   ],
   "note": "The irreps are assumed to be a complete set of unitary irreps (their construction is not modelled); the final cast to real and float arithmetic are not modelled. Parity variants are C122."
  },
  {
   "property": "C63",
   "status": "proved",
   "theorems": [
    "Verif.Machines.C63_total",
    "Verif.Machines.C63_hermitian",
    "Verif.Machines.C63_positive",
    "Verif.Machines.C63_diagonal",
    "Verif.Machines.C63_odd"
   ],
   "note": "Real parameters, default log_cosh activation, exact arithmetic; positivity as Gram matrix on every finite family of configurations."
  },
  {
   "property": "C64",
   "status": "proved",
   "theorems": [
    "Verif.MPS.C64_trace",
    "Verif.MPS.C64_amplitude",
    "Verif.MPS.C64_parameters",
    "Verif.MPS.C64_zero_parameters",
    "Verif.MPS.C64_shift",
    "Verif.MPS.C64_diag",
    "Verif.MPS.C64_setup_default",
    "Verif.MPS.C64_setup_period",
    "Verif.MPS.C64_index",
    "Verif.MPS.C64_setup_zero",
    "Verif.MPS.C64_complex"
   ],
   "note": "The check of the graph argument is not modelled. Real tensors are C122."
  },
  {
   "property": "C65",
   "status": "proved",
   "theorems": [
    "Verif.QGT.C65_symmetric",
    "Verif.QGT.C65_positive",
    "Verif.QGT.C65_holomorphic",
    "Verif.QGT.C65_hermitian",
    "Verif.QGT.C65_complex_mode",
    "Verif.QGT.C65_complex_mode_real",
    "Verif.QGT.C65_real_mode",
    "Verif.QGT.C65_holomorphic_mode",
    "Verif.QGT.C65_tree_complex",
    "Verif.QGT.C65_tree_real",
    "Verif.QGT.C65_tree_holomorphic",
    "Verif.QGT.C65_to_dense",
    "Verif.QGT.C65_rescale",
    "Verif.QGT.C65_solve",
    "Verif.QGT.C65_mode"
   ],
   "note": "Exact arithmetic, one rank, parameters ravelled. to_dense on the fly, vanishing columns, mixed leaves and warm starts are C123."
  },
  {
   "property": "C66",
   "status": "proved",
   "theorems": [
    "Verif.PyTree.C66_ravel_unravel",
    "Verif.PyTree.C66_size",
    "Verif.PyTree.C66_unravel_ravel",
    "Verif.PyTree.C66_to_real",
    "Verif.PyTree.C66_to_real_leaves"
   ],
   "note": "Round trips proved for all trees and all real/complex mixtures, for any tree of the same structure, not only the one the closure was made from; the vector-to-tree-to-vector direction for homogeneous trees."
  },
  {
   "property": "C67",
   "status": "proved",
   "theorems": [
    "Verif.Keys.C67_distinct",
    "Verif.Keys.C67_base",
    "Verif.Keys.C67_count",
    "Verif.Keys.C67_take_ancestor"
   ],
   "note": "Ancestors with next are C124."
  },
  {
   "property": "C68",
   "status": "proved",
   "theorems": [
    "Verif.Vjp.C68_rc",
    "Verif.Vjp.C68_rc_linear",
    "Verif.Vjp.C68_rr",
    "Verif.Vjp.C68_cc",
    "Verif.Vjp.C68_value_and_grad",
    "Verif.Vjp.C68_cc_derivative",
    "Verif.Vjp.C68_rc_derivative",
    "Verif.Vjp.C68_rr_derivative"
   ],
   "note": "Complex to real and has_aux are C124."
  },
  {
   "property": "C69",
   "status": "partial",
   "theorems": [
    "Verif.HashArray.C69_hash_partial",
    "Verif.HashArray.C69_hash_int_partial",
    "Verif.HashArray.C69_refl",
    "Verif.HashArray.C69_dtype_refuted",
    "Verif.HashArray.C69_shape_refuted",
    "Verif.HashArray.C69_zero_refuted"
   ],
   "note": "Refuted for different integer widths, for broadcasting shapes and for signed zeros; proved for arrays of the same dtype and shape without floating point zeros."
  },
  {
   "property": "C70",
   "status": "proved",
   "theorems": [
    "Verif.Dataclass.C70_cache",
    "Verif.Dataclass.C70_read_twice",
    "Verif.Dataclass.C70_missing",
    "Verif.Dataclass.C70_unknown",
    "Verif.Dataclass.C70_restore",
    "Verif.Dataclass.C70_round_trip"
   ],
   "note": "Cache freshness for all sequences of read and replace; restore: missing and unknown fields rejected, otherwise restored; round trip."
  },
  {
   "property": "C71",
   "status": "proved",
   "theorems": [
    "Verif.SteadyState.C71_sparse",
    "Verif.SteadyState.C71_rho",
    "Verif.SteadyState.C71_lowest"
   ],
   "note": "sparse=False and the iterative method are C125."
  },
  {
   "property": "C72",
   "status": "partial",
   "theorems": [
    "Verif.LocalOp.C72_kernel_bounds_partial",
    "Verif.LocalOp.C72_kernel_bounds_refuted"
   ],
   "note": "Proved whenever the operator has a diagonal; refuted without."
  },
  {
   "property": "C73",
   "status": "partial",
   "theorems": [
    "Verif.LocalOp.C73_wrong_shape_rejected_partial",
    "Verif.LocalOp.C73_wrong_shape_refuted"
   ],
   "note": "Proved for a new support; refuted when the support exists already."
  },
  {
   "property": "C74",
   "status": "partial",
   "theorems": [
    "Verif.LocalOp.C74_inplace_square_partial",
    "Verif.LocalOp.C74_inplace_square_refuted"
   ],
   "note": "Proved without constant; refuted with constant."
  },
  {
   "property": "C75",
   "status": "proved",
   "theorems": [
    "Verif.Pauli.C75_validation",
    "Verif.Pauli.C75_acceptance"
   ],
   "note": "A final newline is C126."
  },
  {
   "property": "C76",
   "status": "partial",
   "theorems": [
    "Verif.Ham.C76_same_graph_partial",
    "Verif.Ham.C76_local_sum_partial",
    "Verif.Ham.C76_local_returns_partial",
    "Verif.Ham.C76_different_graphs_refuted",
    "Verif.Ham.C76_isolated_node_refuted",
    "Verif.Ham.C76_local_minus_hamiltonian_refuted"
   ],
   "note": "Proved for equal edges covering the nodes and for sums with local operators; refuted for different graphs, isolated last nodes and B-H."
  },
  {
   "property": "C77",
   "status": "partial",
   "theorems": [
    "Verif.Ham.C77_dtype_partial",
    "Verif.Ham.C77_dtype_first_partial",
    "Verif.Ham.C77_dtype_refuted",
    "Verif.Ham.C77_precision_refuted"
   ],
   "note": "Proved when the first matrix has the largest kind or a dtype is given; refuted for [real, complex]."
  },
  {
   "property": "C78",
   "status": "partial",
   "theorems": [
    "Verif.Liou.C78_padded_partial",
    "Verif.Liou.C78_first_row_refuted",
    "Verif.Liou.C78_padding_configuration_refuted"
   ],
   "note": "Proved when the first pair is not the one with the longest rows; refuted otherwise (np.diff(sections) leaves out the first row). Padding entries sit at the zero configuration, outside the space for spins (refuted)."
  },
  {
   "property": "C79",
   "status": "proved",
   "theorems": [
    "Verif.Liou.C79_to_linear_operator"
   ],
   "note": "Real vectors are C126."
  },
  {
   "property": "C80",
   "status": "partial",
   "theorems": [
    "Verif.VState.C80_per_rank_refuted",
    "Verif.VState.C80_apply_fun_refuted",
    "Verif.VState.C80_make_partial",
    "Verif.VState.C80_sampler_diag_refuted"
   ],
   "note": "n_samples_per_rank and apply_fun raise, sampler_diag does not set machine_pow (refuted); proved for a model with n_samples."
  },
  {
   "property": "C81",
   "status": "proved",
   "theorems": [
    "Verif.Stats.C81_error",
    "Verif.Stats.C81_rhat",
    "Verif.Stats.C81_zero_variance"
   ],
   "note": "That an error is available for vanishing variance is C126."
  },
  {
   "property": "C82",
   "status": "proved",
   "theorems": [
    "Verif.HashArray.C82_hash",
    "Verif.HashArray.C82_call"
   ],
   "note": "Closures with different captured values are C126."
  },
  {
   "property": "C83",
   "status": "partial",
   "theorems": [
    "Verif.Dataclass.C83_tree_map_partial",
    "Verif.Dataclass.C83_tree_map_refuted",
    "Verif.Dataclass.C83_tree_map_value"
   ],
   "note": "Refuted after the property has been read; proved for objects with empty caches."
  },
  {
   "property": "C84",
   "status": "proved",
   "theorems": [
    "Verif.Grp.C84_lattice",
    "Verif.Symm.C84_symm_formula",
    "Verif.Symm.C84_symm_agree",
    "Verif.Symm.C84_equiv_formula",
    "Verif.Symm.C84_equiv_conv",
    "Verif.Symm.C84_equiv_agree",
    "Verif.Symm.C84_equivariant"
   ],
   "note": "Proved over the complex numbers (exact arithmetic), for the layers without mask. The lattice form C84_lattice takes that the space group is a group of permutations as hypotheses (shown for a ring with reflection)."
  },
  {
   "property": "C85",
   "status": "proved",
   "theorems": [
    "Verif.Grp.C85_translation_rows",
    "Verif.Grp.C85_space_group_rows",
    "Verif.Grp.C85_space_group_table"
   ],
   "note": "The lookup of shifted positions is taken as the shift of the cell (see C34). Mixed boundaries only as far as C86 needs them."
  },
  {
   "property": "C86",
   "status": "proved",
   "theorems": [
    "Verif.Grp.C86_periodic",
    "Verif.Grp.C86_open_translations",
    "Verif.Grp.C86_setup"
   ],
   "note": "Open lattices are C127."
  },
  {
   "property": "C87",
   "status": "proved",
   "theorems": [
    "Verif.Machines.C87_log_cosh",
    "Verif.Machines.C87_rbm",
    "Verif.Machines.C87_rbm_no_bias",
    "Verif.Machines.C87_mod_phase",
    "Verif.Machines.C87_jastrow"
   ],
   "note": "Exact complex arithmetic. RBMMultiVal is C122."
  },
  {
   "property": "C88",
   "status": "proved",
   "theorems": [
    "Verif.SR.C88_new_interface",
    "Verif.SR.C88_old_interface",
    "Verif.SR.C88_string_method",
    "Verif.SR.C88_errors",
    "Verif.SR.C88_options",
    "Verif.SR.C88_mode_and_holomorphic",
    "Verif.SR.C88_legacy"
   ],
   "note": "Options of the solver and other documented options are C128."
  },
  {
   "property": "C89",
   "status": "partial",
   "theorems": [
    "Verif.SR.C89_restart_true",
    "Verif.SR.C89_restart_false",
    "Verif.SR.C89_restart_refuted",
    "Verif.SR.C89_flag",
    "Verif.SR.C89_solve_arguments_refuted",
    "Verif.SR.C89_solve_arguments_partial",
    "Verif.SR.C89_lu_refuted",
    "Verif.SR.C89_lu_partial"
   ],
   "note": "As documented refuted; C89_restart_true/false state the behaviour of the code."
  },
  {
   "property": "C90",
   "status": "proved",
   "theorems": [
    "Verif.SR.C90_first",
    "Verif.SR.C90_choice",
    "Verif.SR.C90_repeat"
   ],
   "note": "Changing keywords, errors and mixed parameters are C128."
  },
  {
   "property": "C91",
   "status": "proved",
   "theorems": [
    "Verif.SpinBoson.C91_dimension",
    "Verif.SpinBoson.C91_commutators",
    "Verif.SpinBoson.C91_casimir",
    "Verif.SpinBoson.C91_hermitian",
    "Verif.SpinBoson.C91_pauli",
    "Verif.SpinBoson.C91_get_conn"
   ],
   "note": "Documented ladder operators and the sign of sigmaz are C129."
  },
  {
   "property": "C92",
   "status": "proved",
   "theorems": [
    "Verif.SpinBoson.C92_dimension",
    "Verif.SpinBoson.C92_adjoint",
    "Verif.SpinBoson.C92_number",
    "Verif.SpinBoson.C92_commutator",
    "Verif.SpinBoson.C92_proj",
    "Verif.SpinBoson.C92_proj_error",
    "Verif.SpinBoson.C92_proj_index_error",
    "Verif.SpinBoson.C92_resolution",
    "Verif.SpinBoson.C92_configurations"
   ],
   "note": "Negative n down to -N is C130."
  },
  {
   "property": "C93",
   "status": "proved",
   "theorems": [
    "Verif.LocalValues.C93_local_values",
    "Verif.LocalValues.C93_given_log_vals",
    "Verif.LocalValues.C93_expectation",
    "Verif.LocalValues.C93_density_matrix",
    "Verif.LocalValues.C93_errors",
    "Verif.LocalValues.C93_density_errors"
   ],
   "note": "Operators reachable through the constructors and arithmetic of the model (Built); exact complex arithmetic. Empty batches of density matrices are C130."
  },
  {
   "property": "C94",
   "status": "proved",
   "theorems": [
    "Verif.LocalValues.C94_batches",
    "Verif.LocalValues.C94_formula",
    "Verif.LocalValues.C94_derivative",
    "Verif.LocalValues.C94_errors"
   ],
   "note": "One complex parameter (the code is applied per parameter). Single configurations and other batch sizes are C130."
  },
  {
   "property": "C95",
   "status": "proved",
   "theorems": [
    "Verif.LocalValues.C95_errors",
    "Verif.LocalValues.C95_explicit_axes",
    "Verif.LocalValues.C95_local_value_padding",
    "Verif.LocalValues.C95_local_value"
   ],
   "note": "Default axes are C130."
  },
  {
   "property": "C96",
   "status": "proved",
   "theorems": [
    "Verif.PT.C96_matching",
    "Verif.PT.C96_swap_rows",
    "Verif.PT.C96_decisions",
    "Verif.PT.C96_exchange",
    "Verif.PT.C96_pair_probability",
    "Verif.PT.C96_exchange_balance",
    "Verif.PT.C96_rows",
    "Verif.PT.C96_log_prob",
    "Verif.PT.C96_counters",
    "Verif.PT.C96_move_balance"
   ],
   "note": "Floating point replaced by exact reals; a uniform number u < p has probability min(p,1)."
  },
  {
   "property": "C97",
   "status": "partial",
   "theorems": [
    "Verif.PT.C97_correction_balance_partial",
    "Verif.PT.C97_correction_balance_refuted",
    "Verif.PT.C97_proposed_index",
    "Verif.PT.C97_beta_constant",
    "Verif.PT.C97_sample_partial",
    "Verif.PT.C97_sample_refuted",
    "Verif.PT.C97_two_passes_refuted",
    "Verif.PT.C97_statistics_refuted",
    "Verif.PT.C97_statistics_partial",
    "Verif.PT.C97_acceptance_refuted",
    "Verif.PT.C97_reset_refuted",
    "Verif.PT.C97_initial",
    "Verif.PT.C97_post_init_refuted"
   ],
   "note": "refuted: the sample comes from the replica at β = 1 - 1/n after an exchange (new β is not stored, the index moves), the correction of the rule is multiplied by β, statistics divide by zero, acceptance is never updated, reset keeps the index, n_replicas check accepts all integers."
  },
  {
   "property": "C98",
   "status": "proved",
   "theorems": [
    "Verif.ExactDynamics.C98_schroedinger",
    "Verif.ExactDynamics.C98_real_conserves",
    "Verif.ExactDynamics.C98_imaginary_norm",
    "Verif.ExactDynamics.C98_imaginary_energy"
   ],
   "note": "The integrator itself (scipy) is not modelled: statements concern exact solutions of the ODE that the code passes to it."
  },
  {
   "property": "C99",
   "status": "partial",
   "theorems": [
    "Verif.ExactDynamics.C99_unnormalised_refuted",
    "Verif.ExactDynamics.C99_options_refuted",
    "Verif.ExactDynamics.C99_estimate_partial",
    "Verif.ExactDynamics.C99_estimate_refuted",
    "Verif.ExactDynamics.C99_advance",
    "Verif.ExactDynamics.C99_from_start",
    "Verif.ExactDynamics.C99_iter",
    "Verif.ExactDynamics.C99_failure",
    "Verif.ExactDynamics.C99_iter_failure",
    "Verif.ExactDynamics.C99_step_count_refuted",
    "Verif.ExactDynamics.C99_reset_refuted",
    "Verif.ExactDynamics.C99_run_refuted"
   ],
   "note": "refuted: unnormalised states (variance, imaginary time), step_count, reset, run, matrix_type='direct'."
  },
  {
   "property": "C100",
   "status": "partial",
   "theorems": [
    "Verif.Hilbert.C100_constraint_refuted",
    "Verif.Hilbert.C100_violating_gets_next_index",
    "Verif.HilbertAlgebra.C100_pow_constrained_refuted",
    "Verif.HilbertAlgebra.C100_mul_custom_refuted",
    "Verif.HilbertAlgebra.C100_pow_unbounded_refuted",
    "Verif.HilbertAlgebra.C100_duplicate_sites_refuted",
    "Verif.Hilbert.C100_negative_refuted",
    "Verif.Hilbert.C100_negative_is_zero",
    "Verif.Hilbert.C100_negative_wraps"
   ],
   "note": "Refuted clause by clause; C100_violating_gets_next_index, C100_negative_is_zero and C100_negative_wraps state for all inputs what happens instead."
  },
  {
   "property": "C101",
   "status": "partial",
   "theorems": [
    "Verif.Hilbert.C101_shape_tuple_partial",
    "Verif.Hilbert.C101_shape_ndarray_refuted"
   ],
   "note": "Holds for spaces whose shape is a tuple, refuted for TensorHilbert."
  },
  {
   "property": "C102",
   "status": "partial",
   "theorems": [
    "Verif.Flip.C102_custom_unsorted_refuted",
    "Verif.Flip.C102_doubled_tensor_refuted",
    "Verif.Metro.C102_local_unsorted_refuted"
   ],
   "note": "Refuted: a site is flipped to its own value, another site's value is reported, the chain is not reversible."
  },
  {
   "property": "C103",
   "status": "partial",
   "theorems": [
    "Verif.LocalOp.C103_acting_on_order_refuted",
    "Verif.LocalOp.C103_product_refuted"
   ],
   "note": "Refuted: on local dimensions 2 and 3 the operator is silently replaced by another one. The part that holds is C11 and C13."
  },
  {
   "property": "C104",
   "status": "partial",
   "theorems": [
    "Verif.LocalOp.C104_constructor_refuted",
    "Verif.LocalOp.C104_repeated_iadd_refuted",
    "Verif.LocalOp.C104_sum_shares_operand_refuted",
    "Verif.LocalOp.C104_inplace_scaling_refuted"
   ],
   "note": "Refuted clause by clause."
  },
  {
   "property": "C105",
   "status": "partial",
   "theorems": [
    "Verif.LocalOp.C105_square_of_lying_flag_refuted",
    "Verif.LocalOp.C105_is_hermitian_refuted",
    "Verif.LocalOp.C105_constant_refuted"
   ],
   "note": "Refuted."
  },
  {
   "property": "C106",
   "status": "partial",
   "theorems": [
    "Verif.LocalOp.C106_squared_methods_refuted",
    "Verif.LocalOp.C106_transpose_conjugate_concrete_refuted",
    "Verif.LocalOp.C106_squared_conjugate_refuted",
    "Verif.LocalOp.C106_H_transposed_square_refuted"
   ],
   "note": "Refuted: methods raise or return another operator."
  },
  {
   "property": "C107",
   "status": "partial",
   "theorems": [
    "Verif.LocalOp.C107_max_conn_size_refuted",
    "Verif.LocalOp.C107_zero_times_operator_refuted",
    "Verif.LocalOp.C107_max_conn_size_partial"
   ],
   "note": "Refuted: a constant has one element and bound zero; 0*A keeps its entries. C107_max_conn_size_partial: the bound as it holds."
  },
  {
   "property": "C108",
   "status": "partial",
   "theorems": [
    "Verif.Sparse.C108_constrained_refuted",
    "Verif.Sparse.C108_constrained_partial"
   ],
   "note": "Refuted: the element silently appears at another state. C108_constrained_partial: what is returned exactly."
  },
  {
   "property": "C109",
   "status": "partial",
   "theorems": [
    "Verif.Ham.C109_to_local_operator_partial",
    "Verif.Ham.C109_to_local_operator_is",
    "Verif.Ham.C109_to_local_operator_refuted",
    "Verif.Ham.C109_interaction_dropped_refuted"
   ],
   "note": "Refuted: twice U; V dropped without hopping. Proved for U = 0 (partial), and C109_to_local_operator_is characterises the result."
  },
  {
   "property": "C110",
   "status": "partial",
   "theorems": [
    "Verif.Liou.C110_get_conn_raises_refuted",
    "Verif.Liou.C110_get_conn_garbage_refuted",
    "Verif.Liou.C110_constant_refuted"
   ],
   "note": "Refuted: ValueError, uninitialised elements, dropped elements."
  },
  {
   "property": "C111",
   "status": "partial",
   "theorems": [
    "Verif.Ham.C111_site_only_refuted",
    "Verif.Ham.C111_bond_operators_refuted",
    "Verif.Ham.C111_shared_arrays_refuted"
   ],
   "note": "Refuted: AssertionError, AssertionError, shared buffers."
  },
  {
   "property": "C112",
   "status": "partial",
   "theorems": [
    "Verif.Hist.C112_default_constructor_refuted",
    "Verif.Hist.C112_list_of_values_refuted",
    "Verif.Hist.C112_list_length_refuted",
    "Verif.Hist.C112_missing_key_refuted",
    "Verif.Hist.C112_unknown_key_refuted",
    "Verif.Hist.C112_no_iteration_refuted",
    "Verif.Hist.C112_truncated_refuted",
    "Verif.Hist.C112_list_row_refuted",
    "Verif.Hist.C112_shorter_list_refuted"
   ],
   "note": "Refuted clause by clause."
  },
  {
   "property": "C113",
   "status": "partial",
   "theorems": [
    "Verif.Log.C113_append_empty_refuted",
    "Verif.Log.C113_fail_tar_refuted",
    "Verif.Log.C113_targets_partial"
   ],
   "note": "Refuted: IndexError; ValueError of tarfile. C113_targets_partial: the targets that do work."
  },
  {
   "property": "C114",
   "status": "partial",
   "theorems": [
    "Verif.Driver.C114_no_improvement_partial",
    "Verif.Driver.C114_min_delta_first_refuted",
    "Verif.Driver.C114_min_delta_slow_refuted",
    "Verif.Driver.C114_exact_partial",
    "Verif.Driver.C114_step_refuted"
   ],
   "note": "Refuted for steps that do not divide n_iter (rounded up) and for positive min_delta."
  },
  {
   "property": "C115",
   "status": "partial",
   "theorems": [
    "Verif.Grf.C115_doubled_partial",
    "Verif.Grf.C115_doubled_colours_refuted",
    "Verif.Lat.C115_single_site_refuted"
   ],
   "note": "Refuted: the constructor raises; colours are lost."
  },
  {
   "property": "C116",
   "status": "partial",
   "theorems": [
    "Verif.Grp.C116_reconstruct_partial",
    "Verif.Grp.C116_reconstruct_refuted",
    "Verif.Grp.C116_identity_refuted"
   ],
   "note": "Refuted: ambiguous dispatch; indices in another order."
  },
  {
   "property": "C117",
   "status": "partial",
   "theorems": [
    "Verif.Metro.C117_accepted_le",
    "Verif.Metro.C117_steps_partial",
    "Verif.Metro.C117_reset_keeps",
    "Verif.Metro.C117_reset_refuted",
    "Verif.Metro.C117_ranks_refuted",
    "Verif.Metro.C117_alias_refuted",
    "Verif.Metro.C117_chain_ranks_refuted",
    "Verif.Metro.C117_duplicate",
    "Verif.Metro.C117_stale_refuted",
    "Verif.Metro.C117_split_partial"
   ],
   "note": "Proved on one rank without reset; refuted: reset keeps counters, ranks, stale cache, returned buffer overwritten."
  },
  {
   "property": "C118",
   "status": "partial",
   "theorems": [
    "Verif.AutoReg.C118_support_partial",
    "Verif.AutoReg.C118_support_refuted",
    "Verif.AutoReg.C118_machine_pow_refuted",
    "Verif.AutoReg.C118_sample_next_refuted",
    "Verif.AutoReg.C118_exact_refuted",
    "Verif.Metro.C118_multiplicity_refuted",
    "Verif.Metro.C118_unchecked_clusters_refuted",
    "Verif.Metro.C118_module_reset_refuted"
   ],
   "note": "Refuted clause by clause (C118_support_partial: positive numbers)."
  },
  {
   "property": "C119",
   "status": "partial",
   "theorems": [
    "Verif.AutoReg.C119_conv1d_length_partial",
    "Verif.AutoReg.C119_conv1d_length_refuted"
   ],
   "note": "Refuted for exclusive layers on chains shorter than the dilation."
  },
  {
   "property": "C120",
   "status": "partial",
   "theorems": [
    "Verif.VState.C120_chain_length_partial",
    "Verif.VState.C120_chain_length_refuted",
    "Verif.VState.C120_per_rank_getter_refuted",
    "Verif.VState.C120_per_rank_getter_iff",
    "Verif.VState.C120_length_partial",
    "Verif.VState.C120_length_refuted",
    "Verif.VState.C120_discard_keeps_cache",
    "Verif.VState.C120_sampler_setter_refuted"
   ],
   "note": "Refuted: chain_length on several ranks, n_samples_per_rank getter, sampler setter, cached samples after sample(chain_length=...)."
  },
  {
   "property": "C121",
   "status": "partial",
   "theorems": [
    "Verif.Vjp.C121_gradient_real_partial",
    "Verif.Vjp.C121_gradient_real_refuted",
    "Verif.Vjp.C121_lrho2_partial",
    "Verif.Vjp.C121_lrho2_refuted"
   ],
   "note": "Refuted: half of the derivative; on several ranks another result."
  },
  {
   "property": "C122",
   "status": "partial",
   "theorems": [
    "Verif.Symm.C122_parity_shape_refuted",
    "Verif.Symm.C122_plain_shape",
    "Verif.Symm.C122_parity_refuted",
    "Verif.MPS.C122_mps_real_partial",
    "Verif.MPS.C122_mps_real_refuted",
    "Verif.Machines.C122_one_hot_partial",
    "Verif.Machines.C122_multi_val_refuted"
   ],
   "note": "Refuted: incompatible shapes, NaN for negative traces, one_hot of negative numbers is zero."
  },
  {
   "property": "C123",
   "status": "partial",
   "theorems": [
    "Verif.QGT.C123_to_dense_onthefly_partial",
    "Verif.QGT.C123_to_dense_onthefly_real_partial",
    "Verif.QGT.C123_to_dense_onthefly_refuted",
    "Verif.QGT.C123_rescale_refuted",
    "Verif.QGT.C123_rescale_defined_partial",
    "Verif.QGT.C123_mixed_refuted",
    "Verif.QGT.C123_mixed_partial",
    "Verif.QGT.C123_warm_start_refuted",
    "Verif.QGT.C123_warm_start_partial"
   ],
   "note": "Refuted clause by clause; the positive parts say exactly when it works."
  },
  {
   "property": "C124",
   "status": "partial",
   "theorems": [
    "Verif.Vjp.C124_cr_refuted",
    "Verif.Vjp.C124_has_aux_refuted",
    "Verif.Keys.C124_next_ancestor",
    "Verif.Keys.C124_ancestor_refuted"
   ],
   "note": "Refuted clause by clause."
  },
  {
   "property": "C125",
   "status": "partial",
   "theorems": [
    "Verif.Liou.C125_iterative_partial",
    "Verif.SteadyState.C125_dense_refuted"
   ],
   "note": "sparse=False multiplies elementwise (refuted on a qubit); iterative method partial: convergence of the solver is not proved."
  },
  {
   "property": "C126",
   "status": "partial",
   "theorems": [
    "Verif.HashArray.C126_closure_refuted",
    "Verif.Liou.C126_real_input_refuted",
    "Verif.Pauli.C126_newline_refuted",
    "Verif.Stats.C126_zero_variance_refuted"
   ],
   "note": "Refuted clause by clause."
  },
  {
   "property": "C127",
   "status": "partial",
   "theorems": [
    "Verif.Grp.C127_setup_partial",
    "Verif.Grp.C127_open_chain_refuted"
   ],
   "note": "Refuted: ValueError. C127_setup_partial: the layers can be set up precisely if the number of cells along the open axes divides the order of the point group."
  },
  {
   "property": "C128",
   "status": "partial",
   "theorems": [
    "Verif.SR.C128_solver_options_refuted",
    "Verif.SR.C128_arguments_lost_refuted",
    "Verif.SR.C128_matrix_refuted",
    "Verif.SR.C128_options_refuted",
    "Verif.SR.C128_machine_keyword_refuted",
    "Verif.SR.C128_auto_choice_refuted",
    "Verif.SR.C128_auto_stale_refuted",
    "Verif.SR.C128_auto_after_error_refuted"
   ],
   "note": "Refuted clause by clause."
  },
  {
   "property": "C129",
   "status": "partial",
   "theorems": [
    "Verif.SpinBoson.C129_ladder_partial",
    "Verif.SpinBoson.C129_ladder_refuted",
    "Verif.SpinBoson.C129_sigmaz_partial",
    "Verif.SpinBoson.C129_sigmaz_refuted",
    "Verif.SpinBoson.C129_total_sz_partial",
    "Verif.SpinBoson.C129_total_sz_refuted",
    "Verif.SpinBoson.C129_ladder_direction_partial"
   ],
   "note": "Refuted; the _partial theorems state for every spin what holds instead."
  },
  {
   "property": "C130",
   "status": "partial",
   "theorems": [
    "Verif.LocalValues.C130_empty_batch_refuted",
    "Verif.LocalValues.C130_batch_size_refuted",
    "Verif.LocalValues.C130_single_refuted",
    "Verif.LocalValues.C130_default_axes_refuted",
    "Verif.SpinBoson.C130_proj_refuted"
   ],
   "note": "Refuted clause by clause."
  },
  {
   "property": "C131",
   "status": "proved",
   "theorems": [
    "Verif.PGrp.Planar.C131_rotation",
    "Verif.PGrp.Planar.C131_reflection",
    "Verif.PGrp.Planar.C131_C",
    "Verif.PGrp.Planar.C131_C_elements",
    "Verif.PGrp.Planar.C131_D",
    "Verif.PGrp.Planar.C131_rectangle",
    "Verif.PGrp.Planar.C131_square",
    "Verif.PGrp.Planar.C131_glide",
    "Verif.PGrp.Planar.C131_glide_group"
   ],
   "note": "Coordinates are real numbers; np.allclose in the constructor is equality."
  },
  {
   "property": "C132",
   "status": "proved",
   "theorems": [
    "Verif.PGrp.Axial.C132_rotation",
    "Verif.PGrp.Axial.C132_reflection",
    "Verif.PGrp.Axial.C132_inversion",
    "Verif.PGrp.Axial.C132_rotoreflection",
    "Verif.PGrp.Axial.C132_zero_axis",
    "Verif.PGrp.Axial.C132_C",
    "Verif.PGrp.Axial.C132_C_elements",
    "Verif.PGrp.Axial.C132_Ch",
    "Verif.PGrp.Axial.C132_Cv",
    "Verif.PGrp.Axial.C132_D",
    "Verif.PGrp.Axial.C132_Dh",
    "Verif.PGrp.Axial.C132_S",
    "Verif.PGrp.Axial.C132_S_odd",
    "Verif.PGrp.Axial.C132_Dd",
    "Verif.PGrp.Axial.C132_not_perpendicular"
   ],
   "note": "Coordinates are real numbers; np.allclose in the constructor is equality; perpendicularity is tested with the tolerance 1e-8 and the theorems assume it exactly."
  },
  {
   "property": "C133",
   "status": "proved",
   "theorems": [
    "Verif.PGrp.Axial.C133_glide",
    "Verif.PGrp.Axial.C133_glide_twice",
    "Verif.PGrp.Axial.C133_glide_group",
    "Verif.PGrp.Axial.C133_screw",
    "Verif.PGrp.Axial.C133_screw_group",
    "Verif.PGrp.Axial.C133_screw_group_table"
   ],
   "note": "screw_group is proved for q < 10^8, below which the tolerance 1e-8 of is_approx_int cannot stop the loop early."
  },
  {
   "property": "C134",
   "status": "proved",
   "theorems": [
    "Verif.PGrp.Cubic.C134_T",
    "Verif.PGrp.Cubic.C134_Td",
    "Verif.PGrp.Cubic.C134_Th",
    "Verif.PGrp.Cubic.C134_O",
    "Verif.PGrp.Cubic.C134_Oh",
    "Verif.PGrp.Cubic.C134_Fd3m",
    "Verif.PGrp.Cubic.C134_diamond"
   ],
   "note": ""
  },
  {
   "property": "C135",
   "status": "proved",
   "theorems": [
    "Verif.PGrp.C135_rotation_group",
    "Verif.PGrp.C135_change_origin",
    "Verif.PGrp.C135_product",
    "Verif.PGrp.C135_trivial",
    "Verif.PGrp.Axial.C135_cuboid_rotations",
    "Verif.PGrp.Axial.C135_cuboid"
   ],
   "note": ""
  },
  {
   "property": "C136",
   "status": "proved",
   "theorems": [
    "Verif.Bins.C136_nearest",
    "Verif.Bins.C136_multiples",
    "Verif.Bins.C136_fractions",
    "Verif.Bins.C136_order",
    "Verif.Bins.C136_periodic",
    "Verif.Bins.C136_periodic_iff",
    "Verif.Bins.C136_is_approx_int"
   ],
   "note": "Exact arithmetic: x * bin_density + offset is not rounded before np.rint."
  },
  {
   "property": "C137",
   "status": "proved",
   "theorems": [
    "Verif.Bins.C137_real",
    "Verif.Bins.C137_complex"
   ],
   "note": ""
  },
  {
   "property": "C138",
   "status": "partial",
   "theorems": [
    "Verif.PGrp.C138_order_refuted",
    "Verif.PGrp.C138_order_partial",
    "Verif.PGrp.Axial.C138_perpendicular_refuted",
    "Verif.PGrp.Axial.C138_tilted_partial",
    "Verif.PGrp.C138_eq_refuted",
    "Verif.PGrp.C138_eq_symmetric_refuted",
    "Verif.PGrp.C138_eq_partial"
   ],
   "note": "Violated: C(n) with n ≤ 0 is the trivial group; the test of perpendicularity is not relative to the lengths of the axes; PointGroup.__eq__ raises TypeError for groups without unit cells, holds for prefixes and raises IndexError the other way round."
  },
  {
   "property": "C139",
   "status": "partial",
   "theorems": [
    "Verif.Bins.C139_argument_changed_refuted",
    "Verif.Bins.C139_atol_refuted",
    "Verif.Bins.C139_argument_partial"
   ],
   "note": "Violated: the argument is overwritten, through views for complex arrays; atol is used only for the imaginary parts as a whole."
  },
  {
   "property": "C140",
   "status": "proved",
   "theorems": [
    "Verif.Custom.C140_construct",
    "Verif.Custom.C140_reject",
    "Verif.Custom.C140_accept",
    "Verif.Custom.C140_pick",
    "Verif.Custom.C140_rows",
    "Verif.Custom.C140_proposal",
    "Verif.Custom.C140_symmetric",
    "Verif.Custom.C140_total",
    "Verif.Custom.C140_accept_step",
    "Verif.Custom.C140_detailed_balance"
   ],
   "note": "Numbers are real; the check of the matrices is exact where the code uses np.allclose."
  },
  {
   "property": "C141",
   "status": "partial",
   "theorems": [
    "Verif.Custom.C141_constant_refuted",
    "Verif.Custom.C141_cutoff_refuted",
    "Verif.Custom.C141_neighbour_refuted",
    "Verif.Custom.C141_stuck_refuted",
    "Verif.Custom.C141_inside_partial"
   ],
   "note": "Violated: the constant of the operator is returned as a diagonal element for every operator and changes the cumulative sums; elements below mel_cutoff are dropped after the check. The draw then reads the row of the next chain or past the end of the arrays."
  },
  {
   "property": "C142",
   "status": "proved",
   "theorems": [
    "Verif.Expect.C142_value",
    "Verif.Expect.C142_chains_rejected",
    "Verif.Expect.C142_gradient",
    "Verif.Expect.C142_mean_gradient",
    "Verif.Expect.C142_pathwise",
    "Verif.Expect.C142_refused",
    "Verif.Expect.C142_kernel_one_rank"
   ],
   "note": "Real functions of real parameters."
  },
  {
   "property": "C143",
   "status": "partial",
   "theorems": [
    "Verif.Expect.C143_unbiased_refuted",
    "Verif.Expect.C143_bias_partial",
    "Verif.Expect.C143_ranks_refuted",
    "Verif.Expect.C143_ranks_partial"
   ],
   "note": "Violated: subtracting the sample mean computed from the same samples makes the score part too small by (n-1)/n; the kernel takes the mean instead of the sum over ranks of gradients already divided by the number of ranks."
  },
  {
   "property": "C144",
   "status": "proved",
   "theorems": [
    "Verif.VMC.C144_vmc",
    "Verif.VMC.C144_steady",
    "Verif.VMC.C144_restart",
    "Verif.VMC.C144_forward",
    "Verif.VMC.C144_observables",
    "Verif.VMC.C144_step",
    "Verif.VMC.C144_advance",
    "Verif.VMC.C144_real",
    "Verif.VMC.C144_descent_bare",
    "Verif.VMC.C144_descent_sr"
   ],
   "note": "Descent is stated for exact expectation values (all configurations with their probabilities)."
  },
  {
   "property": "C145",
   "status": "partial",
   "theorems": [
    "Verif.VMC.C145_shared_refuted",
    "Verif.VMC.C145_shared_partial",
    "Verif.VMC.C145_space_refuted",
    "Verif.VMC.C145_space_partial",
    "Verif.VMC.C145_info_refuted",
    "Verif.VMC.C145_info_partial",
    "Verif.VMC.C145_mutable_refuted",
    "Verif.VMC.C145_mutable_partial"
   ],
   "note": "Violated: sr_restart is written into the shared preconditioner object; SteadyState does not compare spaces; info reads the attribute sr, which does not exist; assigning the model state discards the samples between gradient and tensor."
  },
  {
   "property": "C146",
   "status": "proved",
   "theorems": [
    "Verif.Config.C146_bool_env",
    "Verif.Config.C146_int_env",
    "Verif.Config.C146_define",
    "Verif.Config.C146_define_twice",
    "Verif.Config.C146_typed",
    "Verif.Config.C146_update"
   ],
   "note": "The parser of int() for strings is an argument."
  },
  {
   "property": "C147",
   "status": "partial",
   "theorems": [
    "Verif.Config.C147_update_string_refuted",
    "Verif.Config.C147_update_string_partial",
    "Verif.Config.C147_runtime_refuted",
    "Verif.Config.C147_runtime_partial",
    "Verif.Config.C147_failed_refuted",
    "Verif.Config.C147_failed_partial"
   ],
   "note": "Violated: update applies bool() to the string; runtime is stored but never read; types are registered before the environment variable is read."
  },
  {
   "property": "C148",
   "status": "proved",
   "theorems": [
    "Verif.Mpi.C148_reduce",
    "Verif.Mpi.C148_single",
    "Verif.Mpi.C148_mean",
    "Verif.Mpi.C148_jax",
    "Verif.Mpi.C148_agree",
    "Verif.Mpi.C148_bcast",
    "Verif.Mpi.C148_allgather",
    "Verif.Mpi.C148_version",
    "Verif.Mpi.C148_version_order"
   ],
   "note": "Strides are non-negative and equal on all ranks."
  },
  {
   "property": "C149",
   "status": "partial",
   "theorems": [
    "Verif.Mpi.C149_layout_refuted",
    "Verif.Mpi.C149_layout_partial",
    "Verif.Mpi.C149_allgather_refuted",
    "Verif.Mpi.C149_allgather_partial",
    "Verif.Mpi.C149_bcast_refuted",
    "Verif.Mpi.C149_bcast_partial",
    "Verif.Mpi.C149_any_refuted",
    "Verif.Mpi.C149_any_partial"
   ],
   "note": "Violated: reshape(-1) copies arrays that are not C-ordered, the copy is reduced and dropped, and the local values are returned; on one rank the argument is returned as it is."
  },
  {
   "property": "C150",
   "status": "proved",
   "theorems": [
    "Verif.CharTab.C150_table",
    "Verif.CharTab.C150_prune",
    "Verif.CharTab.C150_generic",
    "Verif.CharTab.C150_exists",
    "Verif.CharTab.C150_permutations",
    "Verif.CharTab.C150_readable"
   ],
   "note": "numpy.linalg.eig is a contract: independent eigenvectors of the matrix passed. Exact arithmetic."
  },
  {
   "property": "C151",
   "status": "partial",
   "theorems": [
    "Verif.CharTab.C151_first_refuted",
    "Verif.CharTab.C151_first_partial"
   ],
   "note": "Violated: rows are divided by the phase of their first entry, which is 0/0 if the character vanishes on the first element; documented only as a list of elements, no order required."
  },
  {
   "property": "C152",
   "status": "proved",
   "theorems": [
    "Verif.CharTab.C152_complete",
    "Verif.CharTab.C152_unitary",
    "Verif.CharTab.C152_characters",
    "Verif.CharTab.C152_irreducible",
    "Verif.CharTab.C152_real",
    "Verif.CharTab.C152_complex"
   ],
   "note": "eigh is a contract (sorted eigenvalues, orthonormal eigenvectors). Whether the fixed seeds give an accidental degeneracy (eigenvalues of different spaces closer than 3e-7) is not decided."
  },
  {
   "property": "C153",
   "status": "proved",
   "theorems": [
    "Verif.SpaceIrreps.C153_irreps",
    "Verif.SpaceIrreps.C153_order",
    "Verif.SpaceIrreps.C153_stars",
    "Verif.SpaceIrreps.C153_complete",
    "Verif.SpaceIrreps.C153_reciprocal",
    "Verif.SpaceIrreps.C153_invalid"
   ],
   "note": "The character table of the little group is an argument (C150 is about it). Entries within 1e-8 of zero are zeroed (prune_zeros)."
  },
  {
   "property": "C154",
   "status": "partial",
   "theorems": [
    "Verif.SpaceIrreps.C154_origin_refuted",
    "Verif.SpaceIrreps.C154_complex_refuted"
   ],
   "note": "Both clauses are violated by the code; C153 is the part that holds."
  },
  {
   "property": "C155",
   "status": "proved",
   "theorems": [
    "Verif.GridPG.C155_group",
    "Verif.GridPG.C155_sites",
    "Verif.GridPG.C155_translation",
    "Verif.GridPG.C155_space_group",
    "Verif.GridPG.C155_product",
    "Verif.GridPG.C155_table",
    "Verif.GridPG.C155_fft"
   ],
   "note": "Positions are exact; arrays are compared without the names of the permutations. Extents of 3326400 or more are outside (positions are rounded to that grid by the code)."
  },
  {
   "property": "C156",
   "status": "partial",
   "theorems": [
    "Verif.GridPG.C156_short_axis_refuted",
    "Verif.GridPG.C156_long_axes_partial"
   ],
   "note": "Violated by the code for every grid with a short axis; the part for longer axes holds."
  },
  {
   "property": "C157",
   "status": "proved",
   "theorems": [
    "Verif.LayerCtor.C157_dense_symm_lattice",
    "Verif.LayerCtor.C157_dense_symm_other",
    "Verif.LayerCtor.C157_dense_symm_accepts",
    "Verif.LayerCtor.C157_dense_equivariant_lattice",
    "Verif.LayerCtor.C157_dense_equivariant_group",
    "Verif.LayerCtor.C157_gcnn_lattice",
    "Verif.LayerCtor.C157_gcnn_group",
    "Verif.LayerCtor.C157_gcnn_array",
    "Verif.LayerCtor.C157_gcnn_rejects",
    "Verif.LayerCtor.C157_amplitude_symmetry",
    "Verif.LayerCtor.C157_irreps"
   ],
   "note": "The irrep modes rely on irrep_matrices returning a complete set; C152_complete and C157_irreps derive that from the contract of eigh, all irreducible characters listed and matching dimensions. Models with parity are not covered (C122). Keyword arguments handed on to the layers are not modelled."
  },
  {
   "property": "C158",
   "status": "partial",
   "theorems": [
    "Verif.LayerCtor.C158_graph_refuted",
    "Verif.LayerCtor.C158_modes_refuted",
    "Verif.LayerCtor.C158_product_table_refuted",
    "Verif.LayerCtor.C158_characters_refuted",
    "Verif.LayerCtor.C158_product_table_partial"
   ],
   "note": "What holds for product tables is C158_product_table_partial."
  },
  {
   "property": "C159",
   "status": "proved",
   "theorems": [
    "Verif.CommonLat.C159_bcc",
    "Verif.CommonLat.C159_fcc",
    "Verif.CommonLat.C159_diamond",
    "Verif.CommonLat.C159_pyrochlore",
    "Verif.CommonLat.C159_triangular",
    "Verif.CommonLat.C159_honeycomb",
    "Verif.CommonLat.C159_kagome"
   ],
   "note": "Exact real arithmetic; the KD tree search is modelled as the set of pairs at a positive distance within the cutoff. The point group handed to these lattices (Oh, Fd3m, D(6) or None) is not part of the claim."
  },
  {
   "property": "C160",
   "status": "proved",
   "theorems": [
    "Verif.LatArgs.C160_basis",
    "Verif.LatArgs.C160_pbc",
    "Verif.LatArgs.C160_offsets",
    "Verif.LatArgs.C160_offsets_cell",
    "Verif.LatArgs.C160_grid",
    "Verif.LatArgs.C160_hypercube"
   ],
   "note": "Fractional coordinates are compared in bins of width 1/3326400 modulo 1 (C160_offsets_cell: lattice translations do not matter)."
  },
  {
   "property": "C161",
   "status": "partial",
   "theorems": [
    "Verif.LatArgs.C161_outside_refuted",
    "Verif.LatArgs.C161_edges_refuted",
    "Verif.LatArgs.C161_inside_partial"
   ],
   "note": "What holds is C161_inside_partial."
  },
  {
   "property": "C162",
   "status": "proved",
   "theorems": [
    "Verif.RandomBatch.C162_random_state",
    "Verif.RandomBatch.C162_sizes",
    "Verif.RandomBatch.C162_unsupported"
   ],
   "note": "The generators are assumed to return arrays of the requested shape with entries in the requested range. Fock spaces without largest occupation and the interpretation of a legacy first argument are not modelled."
  },
  {
   "property": "C163",
   "status": "proved",
   "theorems": [
    "Verif.RandomBatch.C163_fock_multinomial",
    "Verif.RandomBatch.C163_spin_multinomial",
    "Verif.RandomBatch.C163_hardcore",
    "Verif.RandomBatch.C163_spin_half",
    "Verif.RandomBatch.C163_unconstrained"
   ],
   "note": "The probability is the fraction of draws u_k mod m, u_k uniform below a common multiple M of all m. Fock spaces with 1 < n_max < n_particles have no closed form and are not claimed."
  },
  {
   "property": "C164",
   "status": "partial",
   "theorems": [
    "Verif.RandomBatch.C164_fock_refuted",
    "Verif.RandomBatch.C164_spin_refuted",
    "Verif.RandomBatch.C164_legacy_refuted",
    "Verif.RandomBatch.C164_sizes_refuted",
    "Verif.RandomBatch.C164_legacy_partial",
    "Verif.RandomBatch.C164_legacy_custom_partial"
   ],
   "note": "Refuted with explicit ratios of probabilities; what holds of the deprecated form is C164_legacy_partial."
  },
  {
   "property": "C165",
   "status": "proved",
   "theorems": [
    "Verif.Linear.C165_dense_general",
    "Verif.Linear.C165_dense",
    "Verif.Linear.C165_batch_dims",
    "Verif.Linear.C165_initial"
   ],
   "note": "Numbers are exact; precision is not modelled. The axes of the sum are those of lax.dot_general: batch, free of the input, free of the kernel."
  },
  {
   "property": "C166",
   "status": "partial",
   "theorems": [
    "Verif.Linear.C166_bias_refuted",
    "Verif.Linear.C166_dtype_refuted",
    "Verif.Linear.C166_no_bias_partial"
   ],
   "note": "linear.py:148-149 inserts the axes of the bias at the positions of the free axes in the input, which are those of the output only when the contracted axes are last. Without bias any consecutive axes work (C166_no_bias_partial)."
  },
  {
   "property": "C167",
   "status": "proved",
   "theorems": [
    "Verif.HilbertEq.C167_equivalence",
    "Verif.HilbertEq.C167_hash",
    "Verif.HilbertEq.C167_same_configurations",
    "Verif.HilbertEq.C167_same_order",
    "Verif.HilbertEq.C167_unconstrained"
   ],
   "note": "Spins are half-integers as documented. OneObject says that one function object computes one function."
  },
  {
   "property": "C168",
   "status": "partial",
   "theorems": [
    "Verif.HilbertEq.C168_constraint_refuted",
    "Verif.HilbertEq.C168_order_refuted",
    "Verif.HilbertEq.C168_custom_partial"
   ],
   "note": "What CustomHilbert compares is stated exactly in C168_custom_partial."
  },
  {
   "property": "C169",
   "status": "proved",
   "theorems": [
    "Verif.Grf.C169_automorphisms",
    "Verif.Grf.C169_distances",
    "Verif.Grf.C169_round_trip",
    "Verif.Grf.C169_disjoint_union",
    "Verif.Grf.C169_from_igraph"
   ],
   "note": "igraph is not part of the repository: that get_isomorphisms_vf2 returns exactly the colour-preserving automorphisms is the hypothesis hfound, and shortest_paths is modelled by breadth-first search."
  },
  {
   "property": "C170",
   "status": "partial",
   "theorems": [
    "Verif.Grf.C170_unconnected_refuted",
    "Verif.Grf.C170_connected_partial"
   ],
   "note": "igraph returns inf for unreachable nodes; nothing in graph.py replaces it. A distance is given exactly to the nodes that can be reached (C170_connected_partial)."
  },
  {
   "property": "C171",
   "status": "proved",
   "theorems": [
    "Verif.TreeOps.C171_dot",
    "Verif.TreeOps.C171_norm",
    "Verif.TreeOps.C171_axpy",
    "Verif.TreeOps.C171_cast",
    "Verif.TreeOps.C171_dtypes",
    "Verif.TreeOps.C171_promote",
    "Verif.TreeOps.C171_compose",
    "Verif.TreeOps.C171_key",
    "Verif.TreeOps.C171_split"
   ],
   "note": "Broadcasting of leaves with different shapes and the promoted dtype of tree_axpy are not modelled (the latter is an argument). Broadcast over MPI is modelled as giving every process the value of the root."
  },
  {
   "property": "C172",
   "status": "partial",
   "theorems": [
    "Verif.TreeOps.C172_homogeneous_refuted",
    "Verif.TreeOps.C172_homogeneous_partial",
    "Verif.TreeOps.C172_empty_refuted",
    "Verif.TreeOps.C172_comm_refuted"
   ],
   "note": "A tree with an integer leaf and a complex leaf counts as homogeneous; tree_dot of trees without leaves raises TypeError; mpi_split uses process `root` of all processes whatever comm is. For trees of floating leaves tree_ishomogeneous is right (C172_homogeneous_partial)."
  },
  {
   "property": "C173",
   "status": "proved",
   "theorems": [
    "Verif.LegacyOpt.C173_sgd",
    "Verif.LegacyOpt.C173_momentum",
    "Verif.LegacyOpt.C173_adagrad",
    "Verif.LegacyOpt.C173_rmsprop",
    "Verif.LegacyOpt.C173_adadelta",
    "Verif.LegacyOpt.C173_adamax",
    "Verif.LegacyOpt.C173_amsgrad",
    "Verif.LegacyOpt.C173_reset",
    "Verif.LegacyOpt.C173_arguments"
   ],
   "note": "Parameters and gradients are vectors of complex numbers of one length; the casting errors of numpy for real parameters with complex gradients are not modelled. AdaMax for beta1 < 1 (beta1 = 1: C174)."
  },
  {
   "property": "C174",
   "status": "partial",
   "theorems": [
    "Verif.LegacyOpt.C174_decay_refuted",
    "Verif.LegacyOpt.C174_reset_refuted",
    "Verif.LegacyOpt.C174_amsgrad_refuted",
    "Verif.LegacyOpt.C174_l2_refuted",
    "Verif.LegacyOpt.C174_adamax_refuted",
    "Verif.LegacyOpt.C174_cutoff_refuted",
    "Verif.LegacyOpt.C174_jax_refuted",
    "Verif.LegacyOpt.C174_wrappers_refuted"
   ],
   "note": "All clauses are refuted: decay factors below 1 raise ValueError and those above 1 are accepted; reset of AdaGrad and AdaDelta raises AttributeError; the factory AmsGrad ignores all its arguments; AdaDelta ignores l2reg; AdaMax with beta1 = 1 raises ZeroDivisionError; RmsProp divides by sqrt(s + epsilon); Sgd for jax machines ignores l2reg and decay_factor; Torch raises NameError; repr of a Wrap with a description raises TypeError."
  },
  {
   "property": "C175",
   "status": "proved",
   "theorems": [
    "Verif.Legacy.C175_pt_rearrange",
    "Verif.Legacy.C175_pt_position",
    "Verif.Legacy.C175_pt_exchange",
    "Verif.Legacy.C175_pt_balance",
    "Verif.Legacy.C175_pt_statistics",
    "Verif.Legacy.C175_pt_stats_range",
    "Verif.Legacy.C175_exact",
    "Verif.Legacy.C175_randint",
    "Verif.Legacy.C175_randint_range",
    "Verif.Legacy.C175_local",
    "Verif.Legacy.C175_exchange",
    "Verif.Legacy.C175_kernel",
    "Verif.Legacy.C175_stationary",
    "Verif.Legacy.C175_local_stationary",
    "Verif.Legacy.C175_exchange_stationary",
    "Verif.Legacy.C175_clusters",
    "Verif.Legacy.C175_exchange_arguments",
    "Verif.Legacy.C175_next",
    "Verif.Legacy.C175_reset",
    "Verif.Legacy.C175_generate",
    "Verif.Legacy.C175_copies",
    "Verif.Legacy.C175_acceptance",
    "Verif.Legacy.C175_init"
   ],
   "note": "Log values are kept as their real parts (only these enter). The numpy kernels; the jax kernels and the custom kernel are not part of it. Replica exchange with an odd number of replicas: C176."
  },
  {
   "property": "C176",
   "status": "partial",
   "theorems": [
    "Verif.Legacy.C176_odd_refuted",
    "Verif.Legacy.C176_flat_refuted",
    "Verif.Legacy.C176_n_replicas_refuted",
    "Verif.Legacy.C176_one_replica_refuted",
    "Verif.Legacy.C176_exact_refuted",
    "Verif.Legacy.C176_hamiltonian_partial",
    "Verif.Legacy.C176_hamiltonian_refuted",
    "Verif.Legacy.C176_samples_refuted",
    "Verif.Legacy.C176_n_chains_refuted",
    "Verif.Legacy.C176_no_chains_refuted",
    "Verif.Legacy.C176_constraint_refuted"
   ],
   "note": "Refuted: the correction of the Hamiltonian kernel is multiplied by machine_pow, so detailed balance holds between connected configurations iff machine_pow = 1 or they have equally many neighbours; the chain samples |psi|^p / n_conn^(p-1) (C176_hamiltonian_partial). samples() yields one array that later moves overwrite. n_chains = 0 is accepted (acceptance 0/0); setting n_chains fills the chains with zeros and leaves sample_shape, so generate_samples raises. MetropolisLocal can start from every configuration of local states whatever the constraint. For odd numbers of replicas the exchange probability of the pair (0,1) is not the ratio of weights; no replica is at beta = 0; setting n_replicas keeps the position of the old beta = 1 replica; one replica gives NaN statistics. ExactSampler.generate_samples draws from the distribution of the parameters at the last reset."
  },
  {
   "property": "C177",
   "status": "proved",
   "theorems": [
    "Verif.LegacyMachine.C177_one_hot",
    "Verif.LegacyMachine.C177_one_hot_injective",
    "Verif.LegacyMachine.C177_multi_invariant",
    "Verif.LegacyMachine.C177_multi_automorphisms",
    "Verif.LegacyMachine.C177_spin_automorphisms",
    "Verif.LegacyMachine.C177_der_log_real",
    "Verif.LegacyMachine.C177_phase",
    "Verif.LegacyMachine.C177_phase_der_log",
    "Verif.LegacyMachine.C177_phase_parameters",
    "Verif.LegacyMachine.C177_to_array",
    "Verif.LegacyMachine.C177_log_norm",
    "Verif.LegacyMachine.C177_indexable",
    "Verif.LegacyMachine.C177_vjp",
    "Verif.LegacyMachine.C177_dm_trace",
    "Verif.LegacyMachine.C177_dm_to_matrix",
    "Verif.LegacyMachine.C177_dm_log_val",
    "Verif.LegacyMachine.C177_dm_init",
    "Verif.LegacyMachine.C177_jastrow_plain",
    "Verif.LegacyMachine.C177_jastrow_symm",
    "Verif.LegacyMachine.C177_jastrow_log_val",
    "Verif.LegacyMachine.C177_jastrow_der_log",
    "Verif.LegacyMachine.C177_jastrow_invariant",
    "Verif.LegacyMachine.C177_jastrow_init",
    "Verif.LegacyMachine.C177_log_val",
    "Verif.LegacyMachine.C177_real",
    "Verif.LegacyMachine.C177_real_value",
    "Verif.LegacyMachine.C177_log_val_symm",
    "Verif.LegacyMachine.C177_invariant",
    "Verif.LegacyMachine.C177_der_log",
    "Verif.LegacyMachine.C177_der_log_length",
    "Verif.LegacyMachine.C177_n_par",
    "Verif.LegacyMachine.C177_parameters",
    "Verif.LegacyMachine.C177_hidden",
    "Verif.LegacyMachine.C177_hidden_symm",
    "Verif.LegacyMachine.C177_built"
   ],
   "note": "Parameters as exact complex numbers; der_log of complex machines where no cosh vanishes. The torch and jax machines are not part of it."
  },
  {
   "property": "C178",
   "status": "partial",
   "theorems": [
    "Verif.LegacyMachine.C178_multi_false_refuted",
    "Verif.LegacyMachine.C178_phase_parameters_refuted",
    "Verif.LegacyMachine.C178_phase_args_refuted",
    "Verif.LegacyMachine.C178_imaginary_refuted",
    "Verif.LegacyMachine.C178_out_refuted",
    "Verif.LegacyMachine.C178_n_hidden_refuted",
    "Verif.LegacyMachine.C178_to_array_refuted",
    "Verif.LegacyMachine.C178_vjp3_refuted",
    "Verif.LegacyMachine.C178_vjp3_partial",
    "Verif.LegacyMachine.C178_dm_normalize_refuted",
    "Verif.LegacyMachine.C178_log_trace_refuted",
    "Verif.LegacyMachine.C178_dm_to_array_refuted",
    "Verif.LegacyMachine.C178_dm_automorphisms_refuted",
    "Verif.LegacyMachine.C178_diagonal_refuted",
    "Verif.LegacyMachine.C178_jastrow_bias_refuted",
    "Verif.LegacyMachine.C178_jastrow_out_refuted"
   ],
   "note": "Refuted: sign(Re x) is 0 for a purely imaginary input, so the factor is 1 instead of cos; `out` lacks the visible bias (RBM and Jastrow); the 3d vector-Jacobian product raises ValueError unless the batches have length one; RbmMultiVal(automorphisms=False) raises RuntimeError; n_hidden is ignored with automorphisms; the visible bias of JastrowSymm is not symmetrised; RbmSpinPhase keeps the new amplitude parameters after a failed assignment, and alpha overrides alpha_a/alpha_p; to_array(normalize=False) is scaled by exp(-max Re log psi); to_array() of density matrices uses the Frobenius norm; to_matrix ignores normalize; log_trace exponentiates the sum and is too small for every matrix with at least two diagonal entries; automorphisms of density-matrix RBMs raise NameError; Diagonal.parameters has no setter."
  },
  {
   "property": "C179",
   "status": "proved",
   "theorems": [
    "Verif.LegacySR.C179_construct",
    "Verif.LegacySR.C179_construct_errors",
    "Verif.LegacySR.C179_scale_setter",
    "Verif.LegacySR.C179_covariance",
    "Verif.LegacySR.C179_operator",
    "Verif.LegacySR.C179_unique",
    "Verif.LegacySR.C179_complex",
    "Verif.LegacySR.C179_real",
    "Verif.LegacySR.C179_info",
    "Verif.LegacySR.C179_warm_start"
   ],
   "note": "The solvers of scipy are arguments which solve every solvable system; tolerances and rounding are not modelled."
  },
  {
   "property": "C180",
   "status": "partial",
   "theorems": [
    "Verif.LegacySR.C180_scale_invariant_refuted",
    "Verif.LegacySR.C180_forces_changed_refuted",
    "Verif.LegacySR.C180_processes_differ_refuted",
    "Verif.LegacySR.C180_cholesky_real_refuted",
    "Verif.LegacySR.C180_unequal_samples_refuted",
    "Verif.LegacySR.C180_uninitialised_refuted",
    "Verif.LegacySR.C180_repr_refuted",
    "Verif.LegacySR.C180_forces_partial"
   ],
   "note": "Refuted: S is divided by the number vdot(diag, diag), so with one parameter of variance v the update is f/(1+shift v) instead of f/(v(1+shift)), for every v except 1; the forces of the caller are divided in place; the real dense matrix lacks the sum over processes and the broadcast result is dropped, so processes continue with different updates; Cholesky with real parameters solves the complex system and drops the imaginary part; with unequal numbers of samples the centring is wrong; the log-derivatives are centred before the ValueError of an SR without machine; repr raises TypeError for the default dense solver or with a threshold, and always says CG for iterative ones."
  },
  {
   "property": "C181",
   "status": "proved",
   "theorems": [
    "Verif.LegacyDriver.C181_run",
    "Verif.LegacyDriver.C181_run_all",
    "Verif.LegacyDriver.C181_run_errors",
    "Verif.LegacyDriver.C181_advance",
    "Verif.LegacyDriver.C181_log_data",
    "Verif.LegacyDriver.C181_n_samples",
    "Verif.LegacyDriver.C181_n_samples_qsr",
    "Verif.LegacyDriver.C181_n_discard",
    "Verif.LegacyDriver.C181_vmc_covariance",
    "Verif.LegacyDriver.C181_vmc_gradient",
    "Verif.LegacyDriver.C181_vmc_sr",
    "Verif.LegacyDriver.C181_steady_gradient",
    "Verif.LegacyDriver.C181_qsr_rotated",
    "Verif.LegacyDriver.C181_qsr_shift",
    "Verif.LegacyDriver.C181_qsr_nll",
    "Verif.LegacyDriver.C181_qsr_gradient",
    "Verif.LegacyDriver.C181_qsr_derivative"
   ],
   "note": "Random numbers, samplers and the log-derivatives of the machine are arguments; MPI ranks as a list of lists; rounding is not modelled."
  },
  {
   "property": "C182",
   "status": "partial",
   "theorems": [
    "Verif.LegacyDriver.C182_iterator_loggers_refuted",
    "Verif.LegacyDriver.C182_iterator_callbacks_refuted",
    "Verif.LegacyDriver.C182_list_of_observables_refuted",
    "Verif.LegacyDriver.C182_list_of_observables_partial",
    "Verif.LegacyDriver.C182_reset_refuted",
    "Verif.LegacyDriver.C182_float_iterations_refuted",
    "Verif.LegacyDriver.C182_qsr_samples_refuted",
    "Verif.LegacyDriver.C182_qsr_data_refuted",
    "Verif.LegacyDriver.C182_qsr_data_partial",
    "Verif.LegacyDriver.C182_steady_defaults_refuted",
    "Verif.LegacyDriver.C182_steady_discard_refuted",
    "Verif.LegacyDriver.C182_real_machines_refuted"
   ],
   "note": "Refuted: an iterator of loggers or callbacks is empty after the first turn, so later turns are not logged and cannot stop the run; a list of observables is a TypeError in the first turn for every driver with a loss; reset is an AttributeError after the sampler has been reset; a float number of iterations passes the check and fails in range; Qsr.n_samples is the number asked for; n_samples_data=0 is a NameError; SteadyState without sampler_obs has no observables, and n_discard_obs is ignored; with numpy optimizers real machines fail with SR and with Qsr."
  },
  {
   "property": "C183",
   "status": "proved",
   "theorems": [
    "Verif.QGT.C183_onthefly",
    "Verif.QGT.C183_onthefly_errors",
    "Verif.QGT.C183_gradients",
    "Verif.QGT.C183_rows",
    "Verif.QGT.C183_matmul",
    "Verif.QGT.C183_rescale",
    "Verif.QGT.C183_equal",
    "Verif.QGT.C183_equal_real",
    "Verif.QGT.C183_dense_solvers",
    "Verif.QGT.C183_real_gradients",
    "Verif.QGT.C183_tree_matmul",
    "Verif.QGT.C183_tree_onthefly",
    "Verif.QGT.C183_tree_rescale",
    "Verif.QGT.C183_tree_columns",
    "Verif.QGT.C183_tree_to_dense",
    "Verif.QGT.C183_tree_solvers",
    "Verif.QGT.C183_tree_real_gradients"
   ],
   "note": "The linear solver is an argument which solves every regular system and keeps real systems real; such solvers are shown to exist. All processes have the same number of samples, as the samplers guarantee. Rounding is not modelled."
  },
  {
   "property": "C184",
   "status": "partial",
   "theorems": [
    "Verif.QGT.C184_guess_refuted",
    "Verif.QGT.C184_guess_partial"
   ],
   "note": "Refuted: in modes real and complex the right-hand side is split to real and imaginary parts and the guess is not, so with any complex leaf the call is an exception (TypeError when rescaled, ValueError otherwise). Holds without guess, in mode holomorphic, and with real leaves only."
  },
  {
   "property": "C185",
   "status": "proved",
   "theorems": [
    "Verif.LegacyLog.C185_sum_size",
    "Verif.LegacyLog.C185_mean_var",
    "Verif.LegacyLog.C185_statistics",
    "Verif.LegacyLog.C185_names",
    "Verif.LegacyLog.C185_estimate",
    "Verif.LegacyLog.C185_gradient",
    "Verif.LegacyLog.C185_json_run",
    "Verif.LegacyLog.C185_json_lag",
    "Verif.LegacyLog.C185_json_flush",
    "Verif.LegacyLog.C185_json_modes",
    "Verif.LegacyLog.C185_tensorboard",
    "Verif.LegacyLog.C185_randint",
    "Verif.LegacyLog.C185_uniform_seed"
   ],
   "note": "Floats are exact numbers, NaN is a missing value; files are their contents (missing, incomplete, or a list of entries). Whether data can be encoded is a predicate on the data of an entry. Rounding and the generator of random numbers are not modelled."
  },
  {
   "property": "C186",
   "status": "partial",
   "theorems": [
    "Verif.LegacyLog.C186_unequal_refuted",
    "Verif.LegacyLog.C186_subtract_mean_refuted",
    "Verif.LegacyLog.C186_stats_refuted",
    "Verif.LegacyLog.C186_stats_partial",
    "Verif.LegacyLog.C186_gradient_refuted",
    "Verif.LegacyLog.C186_processes_refuted",
    "Verif.LegacyLog.C186_r_hat_refuted",
    "Verif.LegacyLog.C186_discard_refuted",
    "Verif.LegacyLog.C186_json_lost_refuted",
    "Verif.LegacyLog.C186_json_aliasing_refuted",
    "Verif.LegacyLog.C186_json_zero_refuted",
    "Verif.LegacyLog.C186_json_complex_refuted",
    "Verif.LegacyLog.C186_json_default_partial",
    "Verif.LegacyLog.C186_tensorboard_refuted",
    "Verif.LegacyLog.C186_seed_refuted"
   ],
   "note": "All clauses are refuted: the mean of unequal shards is the mean of the means; subtract_mean works in place; every unknown name gives None; the imaginary part of the mean and of all complex numbers is dropped; with c chains the gradient is c times the covariance and of the own samples only; on one process R_hat is always NaN; n_discard=0 becomes n_samples // 10; the file is emptied before the data are encoded; a dictionary used twice is logged twice with the last step; write_every=0 is a ZeroDivisionError of the first call; keys with a slash collide and fields of named tuples are logged by number; without a seed every process draws its own."
  },
  {
   "property": "C187",
   "status": "proved",
   "theorems": [
    "Verif.Padded.C187_n_conn",
    "Verif.Padded.C187_local_operator",
    "Verif.Padded.C187_ising",
    "Verif.Padded.C187_bose",
    "Verif.Padded.C187_bose_n_conn",
    "Verif.Padded.C187_local_n_conn",
    "Verif.Padded.C187_bose_sum",
    "Verif.Padded.C187_pauli",
    "Verif.Padded.C187_padded_values",
    "Verif.Padded.C187_jax_derivatives",
    "Verif.Padded.C187_jax_errors"
   ],
   "note": "One parameter at a time; automatic differentiation is the exact derivative. Connected configurations and matrix elements are one list of pairs."
  },
  {
   "property": "C188",
   "status": "partial",
   "theorems": [
    "Verif.Padded.C188_zero_operator_refuted",
    "Verif.Padded.C188_not_centered_refuted",
    "Verif.Padded.C188_not_centered_partial",
    "Verif.Padded.C188_complex_to_real_refuted",
    "Verif.Padded.C188_lazy_refuted",
    "Verif.Padded.C188_bose_sum_refuted",
    "Verif.Padded.C188_bose_padding_refuted"
   ],
   "note": "All clauses are refuted: operators without connected elements and empty batches are a ValueError or IndexError; BoseHubbard is padded with the empty configuration; weights lose their imaginary part without centering for real log-amplitudes; complex parameters with real log-amplitudes and matrix elements are a RuntimeError; the wrappers return the exception class, fail with a TypeError or read uninitialised memory; the edges of the second BoseHubbard operand are ignored and a graph with an isolated last node fails an assertion."
  },
  {
   "property": "C189",
   "status": "proved",
   "theorems": [
    "Verif.SamplerCtor.C189_constructor",
    "Verif.SamplerCtor.C189_errors",
    "Verif.SamplerCtor.C189_rules",
    "Verif.SamplerCtor.C189_replace",
    "Verif.SamplerCtor.C189_pmap_chains",
    "Verif.SamplerCtor.C189_pmap_chain",
    "Verif.SamplerCtor.C189_pmap_run",
    "Verif.SamplerCtor.C189_pmap_steps",
    "Verif.SamplerCtor.C189_pmap_acceptance"
   ],
   "note": "Legacy machines and deprecation warnings are left out; the transition rule, the generator and the machine are arbitrary."
  },
  {
   "property": "C190",
   "status": "partial",
   "theorems": [
    "Verif.SamplerCtor.C190_pmap_rounding_refuted",
    "Verif.SamplerCtor.C190_pmap_dtype_refuted",
    "Verif.SamplerCtor.C190_not_positive_refuted",
    "Verif.SamplerCtor.C190_replace_refuted",
    "Verif.SamplerCtor.C190_exchange_refuted",
    "Verif.SamplerCtor.C190_repr_refuted",
    "Verif.SamplerCtor.C190_ratio_partial"
   ],
   "note": "All clauses are refuted: chains are rounded up, the comparison for the warning is of a number with itself, dtype is not passed on to the devices; zero, negative and missing numbers pass; replace keeps n_sweeps; pairs and graphs are not compared with the space; repr reads an attribute that does not exist; None * 100 is a TypeError."
  },
  {
   "property": "C191",
   "status": "proved",
   "theorems": [
    "Verif.GroupNames.C191_number",
    "Verif.GroupNames.C191_direction",
    "Verif.GroupNames.C191_origin_trans",
    "Verif.GroupNames.C191_plane_translation",
    "Verif.GroupNames.C191_plane_rotation",
    "Verif.GroupNames.C191_plane_reflection",
    "Verif.GroupNames.C191_space_translation",
    "Verif.GroupNames.C191_space_rotation",
    "Verif.GroupNames.C191_space_half_turn",
    "Verif.GroupNames.C191_space_screw",
    "Verif.GroupNames.C191_space_inversion",
    "Verif.GroupNames.C191_space_reflection",
    "Verif.GroupNames.C191_space_rotoreflection"
   ],
   "note": "The complex Schur decomposition (scipy) is an argument with the properties of one; for rotations of space the eigenvector of the real eigenvalue is taken to be real, as computed."
  },
  {
   "property": "C192",
   "status": "proved",
   "theorems": [
    "Verif.GrpCls.C192_inverse",
    "Verif.GrpCls.C192_call",
    "Verif.GrpCls.C192_repr",
    "Verif.GrpCls.C192_translation_group",
    "Verif.GrpCls.C192_translation_axes",
    "Verif.GrpCls.C192_builder",
    "Verif.GrpCls.C192_default_once"
   ],
   "note": "Elements of generic groups are an arbitrary type with product, canonical form and action."
  },
  {
   "property": "C193",
   "status": "partial",
   "theorems": [
    "Verif.GrpCls.C193_product_table_partial",
    "Verif.GrpCls.C193_product_table_refuted",
    "Verif.GrpCls.C193_missing_inverse_refuted",
    "Verif.GrpCls.C193_eq_partial",
    "Verif.GrpCls.C193_eq_no_cell_refuted",
    "Verif.GrpCls.C193_eq_prefix_refuted",
    "Verif.GrpCls.C193_eq_hash_refuted",
    "Verif.GrpCls.C193_translation_axes_refuted",
    "Verif.GrpCls.C193_late_default_refuted"
   ],
   "note": "All clauses are refuted: a list is indexed with an array; a missing inverse is number 0; np.allclose(None, None) is a TypeError, and only the elements of the left group are compared; reduce of nothing and an integer of numpy are TypeErrors; the function of Grid reads the list pbc of the caller when it is first called."
  },
  {
   "property": "C194",
   "status": "proved",
   "theorems": [
    "Verif.Load.C194_restore",
    "Verif.Load.C194_restore_same",
    "Verif.Load.C194_file",
    "Verif.Load.C194_folder",
    "Verif.Load.C194_tar",
    "Verif.Load.C194_append",
    "Verif.Load.C194_no_archive",
    "Verif.Load.C194_archive"
   ],
   "note": "Serialization is an arbitrary pair of functions with parse(ser v) = v; lists and custom classes in variables are not modelled, only dictionaries."
  },
  {
   "property": "C195",
   "status": "proved",
   "theorems": [
    "Verif.Conv.C195_batch",
    "Verif.Conv.C195_value",
    "Verif.Conv.C195_shift",
    "Verif.Conv.C195_defaults",
    "Verif.Conv.C195_same",
    "Verif.Conv.C195_valid",
    "Verif.Conv.C195_transpose_conv",
    "Verif.Conv.C195_transpose_shape",
    "Verif.Conv.C195_transpose_same",
    "Verif.Conv.C195_ones",
    "Verif.Conv.C195_adjoint"
   ],
   "note": "jax.lax is modelled from its documentation; dtypes and initializers are not part of this model."
  },
  {
   "property": "C196",
   "status": "proved",
   "theorems": [
    "Verif.BoseBuf.C196_in_bounds",
    "Verif.BoseBuf.C196_get_conn",
    "Verif.BoseBuf.C196_flattened",
    "Verif.BoseBuf.C196_flattened_pad"
   ],
   "note": "The diagonal element is written once with its final value; numbers up to 2^53 in float64."
  },
  {
   "property": "C197",
   "status": "partial",
   "theorems": [
    "Verif.BoseBuf.C197_dtype_refuted",
    "Verif.BoseBuf.C197_value_refuted",
    "Verif.BoseBuf.C197_partial"
   ],
   "note": "After get_conn_flattened of two or more samples of a dtype on a new object, get_conn returns that dtype, and a sample with larger occupations comes back changed. Values agree between histories whose dtypes hold the occupations."
  },
  {
   "property": "C198",
   "status": "proved",
   "theorems": [
    "Verif.JitRule.C198_first",
    "Verif.JitRule.C198_unchanged",
    "Verif.JitRule.C198_direct",
    "Verif.JitRule.C198_connected"
   ],
   "note": "jax.jit is modelled from its documentation: compiled functions are looked up by static arguments and shapes; operators are compared by identity."
  },
  {
   "property": "C199",
   "status": "partial",
   "theorems": [
    "Verif.JitRule.C199_stale_refuted",
    "Verif.JitRule.C199_proposals_refuted",
    "Verif.JitRule.C199_direct_refuted",
    "Verif.JitRule.C199_other_length_partial"
   ],
   "note": "After `ha += other`, chains already compiled go on proposing with the old matrix. Chains of another length use the new one."
  },
  {
   "property": "C200",
   "status": "proved",
   "theorems": [
    "Verif.Hist.C200_attribute",
    "Verif.Hist.C200_properties",
    "Verif.Hist.C200_iterate",
    "Verif.Hist.C200_to_dict"
   ],
   "note": "Special methods of object are not part of the list of names."
  },
  {
   "property": "C201",
   "status": "partial",
   "theorems": [
    "Verif.Hist.C201_copy_refuted",
    "Verif.Hist.C201_no_main_refuted",
    "Verif.Hist.C201_dict_refuted",
    "Verif.Hist.C201_method_name_refuted",
    "Verif.Hist.C201_values_refuted",
    "Verif.Hist.C201_attribute_partial"
   ],
   "note": "copy.copy, copy.deepcopy and pickle.loads end in a RecursionError for every history, because __getattr__ reads an attribute that the new object does not have yet. A dictionary without main value has no values; columns named like methods are hidden."
  },
  {
   "property": "C202",
   "status": "proved",
   "theorems": [
    "Verif.Metro.C202_irreducible",
    "Verif.Metro.C202_converges",
    "Verif.Metro.C202_local_irreducible",
    "Verif.Metro.C202_local_converges",
    "Verif.Metro.C202_local_odd",
    "Verif.Metro.C202_exchange_irreducible",
    "Verif.Metro.C202_exchange_converges",
    "Verif.Metro.C202_hamiltonian"
   ],
   "note": "One chain with exact real arithmetic and independent uniform draws; the chains of a batch are shown to act independently in C44. Convergence is of the law (and of its time averages), not almost-sure convergence of one realisation."
  },
  {
   "property": "C203",
   "status": "partial",
   "theorems": [
    "Verif.Metro.C203_parity_refuted",
    "Verif.Metro.C203_local_partial",
    "Verif.Metro.C203_exchange_refuted",
    "Verif.Metro.C203_sampler_refuted"
   ],
   "note": "For spins 1/2 (or any two local values) with constant |psi| every flip is accepted, so an even n_sweeps (the default is hilbert.size) conserves the parity of the number of up spins in all samples of a chain. Exchange moves conserve the multiset of local values, so boson spaces with a fixed total are not explored. C203_local_partial gives the exact condition for local moves."
  },
  {
   "property": "C204",
   "status": "proved",
   "theorems": [
    "Verif.Metro.C204_estimates",
    "Verif.Metro.C204_probability",
    "Verif.Metro.C204_local",
    "Verif.Metro.C204_exchange",
    "Verif.Metro.C204_hamiltonian",
    "Verif.Metro.C204_expectation",
    "Verif.Metro.C204_local_expectation",
    "Verif.Metro.C204_covariance",
    "Verif.Metro.C204_gradient"
   ],
   "note": "Expected values over exact trajectories with the probabilities of C44's kernels; mean-square convergence, not almost-sure. C204_gradient is for any sampler with these estimates (C204_local, C204_exchange, C204_hamiltonian) and log-amplitudes holomorphic in the parameter."
  },
  {
   "property": "C205",
   "status": "proved",
   "theorems": [
    "Verif.Direct.C205_unbiased",
    "Verif.Direct.C205_error",
    "Verif.Direct.C205_variance",
    "Verif.Direct.C205_exact",
    "Verif.Direct.C205_autoregressive"
   ],
   "note": "Draws are independent and have the measure of the uniform numbers they are made of (C49_probability, C51_probability); the rounding of choice at 1 is in C49/C51."
  },
  {
   "property": "C206",
   "status": "proved",
   "theorems": [
    "Verif.LegacyJax.C206_logcosh",
    "Verif.LegacyJax.C206_rbm",
    "Verif.LegacyJax.C206_rbm_real",
    "Verif.LegacyJax.C206_rbm_phase",
    "Verif.LegacyJax.C206_dense_real",
    "Verif.LegacyJax.C206_ndm_value",
    "Verif.LegacyJax.C206_ndm_joined",
    "Verif.LegacyJax.C206_ndm_hermitian",
    "Verif.LegacyJax.C206_ndm_positive",
    "Verif.LegacyJax.C206_ndm_diagonal",
    "Verif.LegacyJax.C206_ndm_phase_value",
    "Verif.LegacyJax.C206_ndm_phase_positive",
    "Verif.LegacyJax.C206_mps_index",
    "Verif.LegacyJax.C206_mps_uneven",
    "Verif.LegacyJax.C206_mps_period",
    "Verif.LegacyJax.C206_mps_value",
    "Verif.LegacyJax.C206_mps_translation",
    "Verif.LegacyJax.C206_mps_diag",
    "Verif.LegacyJax.C206_vjp_complex",
    "Verif.LegacyJax.C206_vjp_real_complex",
    "Verif.LegacyJax.C206_vjp_real",
    "Verif.LegacyJax.C206_vjp_jacobian",
    "Verif.LegacyJax.C206_kind",
    "Verif.LegacyJax.C206_flatten",
    "Verif.LegacyJax.C206_unflatten",
    "Verif.LegacyJax.C206_set_refused",
    "Verif.LegacyJax.C206_output",
    "Verif.LegacyJax.C206_wrap",
    "Verif.LegacyJax.C206_sr_holomorphic",
    "Verif.LegacyJax.C206_sr_real",
    "Verif.LegacyJax.C206_sr_jacobian",
    "Verif.LegacyJax.C206_sr_solver"
   ],
   "note": "Machines are functions of their arrays; jax's derivatives enter as given Jacobians. The value of the MPS network is C206_mps_value; that it is used as the logarithm of the amplitude is in C207."
  },
  {
   "property": "C207",
   "status": "partial",
   "theorems": [
    "Verif.LegacyJax.C207_imaginary_refuted",
    "Verif.LegacyJax.C207_imaginary_partial",
    "Verif.LegacyJax.C207_dense_init_refuted",
    "Verif.LegacyJax.C207_ndm_opposite_refuted",
    "Verif.LegacyJax.C207_ndm_positive_refuted",
    "Verif.LegacyJax.C207_ndm_positive_partial",
    "Verif.LegacyJax.C207_phase_bias_refuted",
    "Verif.LegacyJax.C207_mps_log_refuted",
    "Verif.LegacyJax.C207_vjp_jacobian_refuted",
    "Verif.LegacyJax.C207_unflatten_refuted",
    "Verif.LegacyJax.C207_unflatten_partial",
    "Verif.LegacyJax.C207_sr_onthefly_refuted",
    "Verif.LegacyJax.C207_sr_variants_refuted",
    "Verif.LegacyJax.C207_sr_solver_refuted"
   ],
   "note": "Refuted: logcosh has the value log 1 on the imaginary axis (C207_imaginary_refuted), so NdmSpin without biases is not positive (C207_ndm_positive_refuted, a family of weights on two spins) and its mixing part is missing between opposite configurations; NdmSpinPhase(use_hidden_bias=False) is a TypeError; log_val of MPSPeriodic is the trace, not its logarithm; return_jacobian=True conjugates for real parameters; mat_vec has an additional rank-one term for real parameters with complex output; DenseReal starts with equal real and imaginary weights; gmres, minres and jaxcg raise; too long vectors are accepted. What holds instead: C207_imaginary_partial, C207_ndm_positive_partial, C207_unflatten_partial."
  },
  {
   "property": "C208",
   "status": "proved",
   "theorems": [
    "Verif.LegacyCustom.C208_accept",
    "Verif.LegacyCustom.C208_reject",
    "Verif.LegacyCustom.C208_proposal",
    "Verif.LegacyCustom.C208_symmetric",
    "Verif.LegacyCustom.C208_stationary"
   ],
   "note": "The kernel object with its two buffers is explicit; random numbers are arguments. Operators with a constant are in C209."
  },
  {
   "property": "C209",
   "status": "partial",
   "theorems": [
    "Verif.LegacyCustom.C209_weights_refuted",
    "Verif.LegacyCustom.C209_arrays_partial",
    "Verif.LegacyCustom.C209_second_partial",
    "Verif.LegacyCustom.C209_constant_refuted",
    "Verif.LegacyCustom.C209_support_refuted"
   ],
   "note": "Refuted: a float array of weights is normalised in place (C209_weights_refuted); an operator with a constant of at least one is accepted and never moves (C209_constant_refuted); the sum of two moves on one site is a single matrix with row sums two, AssertionError (C209_support_refuted). What holds: all other arrays are unchanged (C209_arrays_partial)."
  },
  {
   "property": "C210",
   "status": "proved",
   "theorems": [
    "Verif.LegacyTorch.C210_set",
    "Verif.LegacyTorch.C210_set_wrong",
    "Verif.LegacyTorch.C210_parameters",
    "Verif.LegacyTorch.C210_der_log",
    "Verif.LegacyTorch.C210_vjp",
    "Verif.LegacyTorch.C210_log_val"
   ],
   "note": "The module is a function of its differentiable parameters with two real outputs; autograd computes derivatives."
  },
  {
   "property": "C211",
   "status": "partial",
   "theorems": [
    "Verif.LegacyTorch.C211_vector_refuted",
    "Verif.LegacyTorch.C211_log_cosh_refuted",
    "Verif.LegacyTorch.C211_log_cosh_partial"
   ],
   "note": "Refuted: log_val of a vector is an array with one entry; TorchLogCosh is log cosh x + log 2 below the threshold of softplus and x above. Bounds on its value: C211_log_cosh_partial."
  },
  {
   "property": "C212",
   "status": "proved",
   "theorems": [
    "Verif.Numba4jax.C212_eager",
    "Verif.Numba4jax.C212_compiled",
    "Verif.Numba4jax.C212_vmap"
   ],
   "note": "Arrays are shapes with entries; dtypes and pointers are left out. jax's vmap and lax.map are modelled as documented by jax."
  },
  {
   "property": "C213",
   "status": "partial",
   "theorems": [
    "Verif.Numba4jax.C213_compiled_refuted",
    "Verif.Numba4jax.C213_vmap_count_refuted",
    "Verif.Numba4jax.C213_vmap_single_refuted",
    "Verif.Numba4jax.C213_unmapped_refuted",
    "Verif.Numba4jax.C213_axis_refuted"
   ],
   "note": "Refuted: more than four inputs or outputs cannot be compiled (C213_compiled_refuted); with different numbers of inputs and outputs vmap is an AssertionError (C213_vmap_count_refuted); with one array it is an AssertionError, or lacks the batch axis (C213_vmap_single_refuted); unmapped arguments are consumed row by row (C213_unmapped_refuted); the first axis is used instead of the second (C213_axis_refuted)."
  },
  {
   "property": "C214",
   "status": "proved",
   "theorems": [
    "Verif.StateCtor.C214_construct",
    "Verif.StateCtor.C214_refuse",
    "Verif.StateCtor.C214_seeded",
    "Verif.StateCtor.C214_init",
    "Verif.StateCtor.C214_mutable"
   ],
   "note": "Functions of the model are arbitrary; jax's keys are an arbitrary type with split."
  },
  {
   "property": "C215",
   "status": "partial",
   "theorems": [
    "Verif.StateCtor.C215_ignored_refuted",
    "Verif.StateCtor.C215_unknown_refuted",
    "Verif.StateCtor.C215_unknown_partial",
    "Verif.StateCtor.C215_haiku_load_refuted"
   ],
   "note": "Refuted: with a model both functions are ignored (C215_ignored_refuted); without haiku installed any unknown model is a ModuleNotFoundError, since is_loaded is never asked (C215_unknown_refuted); the registered function returns the object to be restored (C215_haiku_load_refuted). What holds: C215_unknown_partial."
  },
  {
   "property": "C216",
   "status": "proved",
   "theorems": [
    "Verif.DataclassInit.C216_fields",
    "Verif.DataclassInit.C216_arguments",
    "Verif.DataclassInit.C216_pre",
    "Verif.DataclassInit.C216_hash",
    "Verif.DataclassInit.C216_pytree",
    "Verif.DataclassInit.C216_replace",
    "Verif.DataclassInit.C216_cached",
    "Verif.DataclassInit.C216_precompute",
    "Verif.DataclassInit.C216_hashable"
   ],
   "note": "Values of fields are arbitrary; class definitions python refuses are left out."
  },
  {
   "property": "C217",
   "status": "partial",
   "theorems": [
    "Verif.DataclassInit.C217_super_refuted",
    "Verif.DataclassInit.C217_positional_refuted",
    "Verif.DataclassInit.C217_symmetry_refuted",
    "Verif.DataclassInit.C217_super_partial"
   ],
   "note": "Refuted: a cached property with super().p always ends in a RecursionError (C217_super_refuted); a positional argument too many becomes the value of the first cached property (C217_positional_refuted); replace of a PGSymmetry is always a TypeError (C217_symmetry_refuted). What holds: C217_super_partial."
  },
  {
   "property": "C218",
   "status": "proved",
   "theorems": [
    "Verif.ExpectStats.C218_expect",
    "Verif.ExpectStats.C218_grad",
    "Verif.ExpectStats.C218_mixed",
    "Verif.ExpectStats.C218_rhat",
    "Verif.ExpectStats.C218_error"
   ],
   "note": "Local values are arbitrary complex functions of the configuration; gradients are the subject of C02, C124 and others."
  },
  {
   "property": "C219",
   "status": "partial",
   "theorems": [
    "Verif.ExpectStats.C219_lrho2_refuted",
    "Verif.ExpectStats.C219_lrho2_partial",
    "Verif.ExpectStats.C219_parent_refuted",
    "Verif.ExpectStats.C219_physical_refuted",
    "Verif.ExpectStats.C219_n_chains_refuted"
   ],
   "note": "Refuted: for squares of superoperators R_hat is NaN on one rank (C219_lrho2_refuted), mean and variance are right (C219_lrho2_partial); with is_hermitian=False the statistics are those of O (C219_parent_refuted); n_chains is the length of the chains (C219_n_chains_refuted); NotImplemented for operators on the physical space (C219_physical_refuted)."
  },
  {
   "property": "C220",
   "status": "proved",
   "theorems": [
    "Verif.Eigen.C220_local_values",
    "Verif.Eigen.C220_statistics",
    "Verif.Eigen.C220_squared",
    "Verif.Eigen.C220_gradient",
    "Verif.Eigen.C220_fixed",
    "Verif.Eigen.C220_bound"
   ],
   "note": "Composition of the models of local values, statistics, gradients and the quantum geometric tensor; exact arithmetic."
  },
  {
   "property": "C221",
   "status": "proved",
   "theorems": [
    "Verif.DriverLog.C221_run",
    "Verif.DriverLog.C221_other_ranks",
    "Verif.DriverLog.C221_loggers_only_look",
    "Verif.DriverLog.C221_logger_raises",
    "Verif.DriverLog.C221_callback_raises",
    "Verif.DriverLog.C221_json",
    "Verif.DriverLog.C221_path"
   ],
   "note": "Exceptions of the forward pass, the progress bar and callbacks which change the driver are not modelled; statistics are abstract values."
  },
  {
   "property": "C222",
   "status": "partial",
   "theorems": [
    "Verif.DriverLog.C222_list_refuted",
    "Verif.DriverLog.C222_dict_partial",
    "Verif.DriverLog.C222_iterator_refuted",
    "Verif.DriverLog.C222_callbacks_refuted",
    "Verif.DriverLog.C222_name_refuted"
   ],
   "note": "Refuted clauses are proved for all such inputs; the part that holds is C221 and C222_dict_partial (named observables)."
  },
  {
   "property": "C223",
   "status": "proved",
   "theorems": [
    "Verif.Optax.C223_sgd",
    "Verif.Optax.C223_momentum",
    "Verif.Optax.C223_momentum_rescaled",
    "Verif.Optax.C223_adagrad",
    "Verif.Optax.C223_rmsprop",
    "Verif.Optax.C223_adam"
   ],
   "note": "The semantics of optax (not in the repository) is part of the trusted base; exact real arithmetic, one parameter."
  },
  {
   "property": "C224",
   "status": "partial",
   "theorems": [
    "Verif.Optax.C224_momentum_refuted",
    "Verif.Optax.C224_adagrad_refuted",
    "Verif.Optax.C224_adagrad_partial",
    "Verif.Optax.C224_rmsprop_refuted"
   ],
   "note": "Refuted for all inputs; the part that holds: AdaGrad with initial_accumulator_value = 0, Momentum with rescaled learning rate (C223)."
  },
  {
   "property": "C225",
   "status": "proved",
   "theorems": [
    "Verif.Mixed.C225_trace",
    "Verif.Mixed.C225_bounds",
    "Verif.Mixed.C225_pure",
    "Verif.Mixed.C225_ndm"
   ],
   "note": "Composition of the models of local values and of the NDM; exact arithmetic; entries of the density matrix that vanish (logarithm minus infinity) are outside."
  },
  {
   "property": "C226",
   "status": "proved",
   "theorems": [
    "Verif.SteadyCost.C226_cost",
    "Verif.SteadyCost.C226_lindbladian"
   ],
   "note": "Composition of the model of LocalLiouvillian.get_conn_flattened with local values over the full doubled space; the Monte Carlo average is that of C218; exact arithmetic."
  },
  {
   "property": "C227",
   "status": "proved",
   "theorems": [
    "Verif.Ham.C227_ising",
    "Verif.Ham.C227_bose",
    "Verif.Ham.C227_graph_operator",
    "Verif.Ham.C227_heisenberg",
    "Verif.Ham.C227_automorphisms",
    "Verif.Ham.C227_local_values",
    "Verif.Ham.C227_asymmetric_bond"
   ],
   "note": "Matrix elements of the models of get_conn (Ising, BoseHubbard) and of LocalOperator (GraphOperator, Heisenberg); automorphisms as characterised by C169 (igraph's search is a hypothesis there)."
  },
  {
   "property": "C228",
   "status": "partial",
   "theorems": [
    "Verif.Ham.C228_sign_rule",
    "Verif.Ham.C228_rotations",
    "Verif.Ham.C228_stoquastic",
    "Verif.Ham.C228_flip_refuted"
   ],
   "note": "The conjugation, stoquasticity and rotation clauses are proved; the documented wording, a flip of Sz on one sublattice, is refuted: it is a rotation by pi around z (C228_flip_refuted). graph.is_bipartite is igraph's answer, given as an argument; a two-colouring is a hypothesis."
  },
  {
   "property": "C229",
   "status": "proved",
   "theorems": [
    "Verif.ExactDiag.C229_lanczos",
    "Verif.ExactDiag.C229_scipy_args",
    "Verif.ExactDiag.C229_errors",
    "Verif.ExactDiag.C229_bound"
   ],
   "note": "scipy.sparse.linalg.eigsh, numpy.linalg.eigh and eigvalsh are arguments with their documented behaviour as hypothesis (scipy_exists and numpy_exists show that it can be met); exact arithmetic."
  },
  {
   "property": "C230",
   "status": "proved",
   "theorems": [
    "Verif.ExactDiag.C230_iterative",
    "Verif.ExactDiag.C230_start"
   ],
   "note": "bicgstab is an argument; its result is assumed to solve the equations exactly. Broadcasting of a rho0 with a single entry is not modelled; printing is not modelled."
  },
  {
   "property": "C231",
   "status": "proved",
   "theorems": [
    "Verif.SRStep.C231_excess",
    "Verif.SRStep.C231_minimiser",
    "Verif.SRStep.C231_converse"
   ],
   "note": "Exact arithmetic; the solver's result is assumed to solve the system (C65_solve relates the representations). The samples need not represent |psi|² exactly."
  },
  {
   "property": "C232",
   "status": "proved",
   "theorems": [
    "Verif.LocalOp.C232_constrained",
    "Verif.Ham.C232_heisenberg"
   ],
   "note": "Exact arithmetic (the cutoff discards exactly the zeros). Operators that do leave the constrained space are C108."
  },
  {
   "property": "C233",
   "status": "proved",
   "theorems": [
    "Verif.ModTools.C233_hide",
    "Verif.ModTools.C233_private",
    "Verif.ModTools.C233_order",
    "Verif.ModTools.C233_idempotent",
    "Verif.ModTools.C233_export",
    "Verif.ModTools.C233_shim"
   ],
   "note": "Attributes that python adds by itself are not counted. Hypothesis: no attribute with the empty name."
  },
  {
   "property": "C234",
   "status": "partial",
   "theorems": [
    "Verif.ModTools.C234_lost_refuted",
    "Verif.ModTools.C234_kept_partial",
    "Verif.ModTools.C234_dir_refuted",
    "Verif.ModTools.C234_unexported_refuted"
   ],
   "note": "Violated: a private submodule _a is lost if there is a public a; dir lists private names that the shims refuse; a module without exported names cannot be listed."
  },
  {
   "property": "C235",
   "status": "proved",
   "theorems": [
    "Verif.LogPdf.C235_density",
    "Verif.LogPdf.C235_distinct",
    "Verif.LogPdf.C235_equal",
    "Verif.LogPdf.C235_jit"
   ],
   "note": "Exact real arithmetic; jit is the lookup of an equal static argument."
  },
  {
   "property": "C236",
   "status": "partial",
   "theorems": [
    "Verif.LogPdf.C236_equal_refuted",
    "Verif.LogPdf.C236_stale_refuted",
    "Verif.LogPdf.C236_equal_partial"
   ],
   "note": "Violated: HashablePartial compares the code of the lambda but not the sampler in its closure, so that machine_pow is ignored."
  },
  {
   "property": "C237",
   "status": "proved",
   "theorems": [
    "Verif.LegacyTree.C237_reshape",
    "Verif.LegacyTree.C237_round",
    "Verif.LegacyTree.C237_short"
   ],
   "note": "tree_flatten is the list of leaves."
  },
  {
   "property": "C238",
   "status": "partial",
   "theorems": [
    "Verif.LegacyTree.C238_long_refuted",
    "Verif.LegacyTree.C238_long_partial"
   ],
   "note": "Violated for updates that are too long."
  },
  {
   "property": "C239",
   "status": "proved",
   "theorems": [
    "Verif.Ham.C239_ising",
    "Verif.Ham.C239_bose",
    "Verif.Ham.C239_bose_particles"
   ],
   "note": "Exact arithmetic; square roots are an arbitrary function with which the documented matrix is written. Buffers shared between calls are C196 and C197."
  },
  {
   "property": "C240",
   "status": "proved",
   "theorems": [
    "Verif.Tools.C240_white",
    "Verif.Tools.C240_words",
    "Verif.Tools.C240_strip",
    "Verif.Tools.C240_cpus",
    "Verif.Tools.C240_cpus_other",
    "Verif.Tools.C240_cpuinfo",
    "Verif.Tools.C240_link_flags",
    "Verif.Tools.C240_mpi",
    "Verif.Tools.C240_columns",
    "Verif.Tools.C240_check_mpi",
    "Verif.Tools.C240_backends",
    "Verif.Tools.C240_sysctl",
    "Verif.Tools.C240_unsupported",
    "Verif.Tools.C240_version"
   ],
   "note": "White space is ASCII, line ends are newline characters, int(_, 16) without signs, underscores and prefixes; int of Python is an arbitrary function."
  },
  {
   "property": "C241",
   "status": "partial",
   "theorems": [
    "Verif.Tools.C241_none_refuted",
    "Verif.Tools.C241_strip_refuted",
    "Verif.Tools.C241_strip_partial",
    "Verif.Tools.C241_flags_refuted",
    "Verif.Tools.C241_flags_partial",
    "Verif.Tools.C241_sysctl_refuted",
    "Verif.Tools.C241_sysctl_partial",
    "Verif.Tools.C241_indent_refuted",
    "Verif.Tools.C241_indent_partial"
   ],
   "note": "Refuted: None without the line or with an empty mask; strip removes all white space at both ends; KeyError without flags (ARM); the key of AVX2 is misspelt (hw.optionxwal.avx2_0), and AVX in the last line is missed because the output is stripped; indentations above 9 raise. Proved in the _partial theorems: exact conditions, AVX before any other character."
  },
  {
   "property": "C242",
   "status": "proved",
   "theorems": [
    "Verif.Depr.C242_wrapper",
    "Verif.Depr.C242_renamed",
    "Verif.Depr.C242_message",
    "Verif.Depr.C242_lattice_message",
    "Verif.Depr.C242_lattice",
    "Verif.Depr.C242_lattice_edge",
    "Verif.Depr.C242_graph",
    "Verif.Depr.C242_boson",
    "Verif.Depr.C242_lazy",
    "Verif.Depr.C242_lazy_call"
   ],
   "note": "textwrap.dedent and the texts of long messages are parameters; Fock behind the first line is an arbitrary function. Warnings shown only once per location count each time."
  },
  {
   "property": "C243",
   "status": "partial",
   "theorems": [
    "Verif.Depr.C243_graph_refuted",
    "Verif.Depr.C243_graph_partial",
    "Verif.Depr.C243_lazy_refuted",
    "Verif.Depr.C243_lazy_partial",
    "Verif.Depr.C243_lazy_unusable",
    "Verif.Depr.C243_activation_refuted",
    "Verif.Depr.C243_activation_partial"
   ],
   "note": "Refuted: N=1 given next to a graph is ignored; with any solver option SRLazyCG/SRLazyGMRES take the old-API path: the class QGTOnTheFly becomes the diagonal shift, the tensor is chosen automatically, the solver is CG, and the option reaches the tensor's constructor, a TypeError; logtanh and logsinh point to log_cosh. Proved in the _partial theorems: exact results."
  },
  {
   "property": "C244",
   "status": "proved",
   "theorems": [
    "Verif.LegacyJs.C244_generate",
    "Verif.LegacyJs.C244_next",
    "Verif.LegacyJs.C244_invariant",
    "Verif.LegacyJs.C244_local",
    "Verif.LegacyJs.C244_exchange",
    "Verif.LegacyJs.C244_local_stationary",
    "Verif.LegacyJs.C244_exchange_stationary",
    "Verif.LegacyJs.C244_construct",
    "Verif.LegacyJs.C244_reset",
    "Verif.LegacyJs.C244_versions"
   ],
   "note": "Keys and random numbers are arbitrary functions of the key; floats exact; XLA compilation is not modelled, apart from Python values being fixed when random_state is traced. The acceptance counters of the JAX sampler are never updated and the buffer argument samples is ignored: not part of the claim."
  },
  {
   "property": "C245",
   "status": "partial",
   "theorems": [
    "Verif.LegacyJs.C245_exchange_reset_refuted",
    "Verif.LegacyJs.C245_exchange_reset_partial",
    "Verif.LegacyJs.C245_n_chains_refuted",
    "Verif.LegacyJs.C245_n_chains_partial",
    "Verif.LegacyJs.C245_zero_samples_refuted",
    "Verif.LegacyJs.C245_zero_samples_partial",
    "Verif.LegacyJs.C245_sweep_refuted",
    "Verif.LegacyJs.C245_sweep_partial",
    "Verif.LegacyJs.C245_versions_refuted"
   ],
   "note": "Refuted: the exchange kernel's random_state calls hilbert.random_state() while being traced, so that all chains and all later resets have the same configuration; setting n_chains to another number raises AssertionError after changing the attribute and the states; generate_samples(0, True) returns None without reset; sweep_size 0 is accepted and a negative one stored, and no moves are made; Hamiltonian, custom and tempering samplers raise NotImplementedError for JAX machines. Proved in the _partial theorems: exact results."
  },
  {
   "property": "C246",
   "status": "proved",
   "theorems": [
    "Verif.StatsRepr.C246_error",
    "Verif.StatsRepr.C246_small",
    "Verif.StatsRepr.C246_complex",
    "Verif.StatsRepr.C246_repr"
   ],
   "note": "log10 and the products are exact; negative zero is not modelled."
  },
  {
   "property": "C247",
   "status": "partial",
   "theorems": [
    "Verif.StatsRepr.C247_mean_refuted",
    "Verif.StatsRepr.C247_mean_partial"
   ],
   "note": "Refuted: for errors up to 1e-7 only four digits of the mean are written, e.g. 1.000e+04 for 10000.5 with error 1e-8. Proved in the _partial theorem: the text is within a 2000th of the mean."
  },
  {
   "property": "C248",
   "status": "proved",
   "theorems": [
    "Verif.Stats.C248_order",
    "Verif.Stats.C248_scaling",
    "Verif.Stats.C248_bounds",
    "Verif.Stats.C248_nonneg",
    "Verif.Stats.C248_expected_error"
   ],
   "note": "over exact complex numbers; expectation over finitely many outcomes per chain"
  },
  {
   "property": "C249",
   "status": "partial",
   "theorems": [
    "Verif.Stats.C249_gelman_rubin_refuted",
    "Verif.Stats.C249_gelman_rubin_partial",
    "Verif.Stats.C249_frozen"
   ],
   "note": "refuted: the code divides by the total variance instead of W; with x = B/W it gives sqrt((C-1)/C + x/(1+x)), never above the ratio, equal to it only if all chains have the same mean; chains which never move give sqrt(2 - 1/C)"
  },
  {
   "property": "C250",
   "status": "proved",
   "theorems": [
    "Verif.Log.C250_contents",
    "Verif.Log.C250_recover",
    "Verif.Log.C250_numbers"
   ],
   "note": "The text of the JSON value and arrays of dtype object are not modelled."
  },
  {
   "property": "C251",
   "status": "partial",
   "theorems": [
    "Verif.Log.C251_arrays_refuted",
    "Verif.Log.C251_lost_refuted",
    "Verif.Log.C251_nan_refuted",
    "Verif.Log.C251_scalars_refuted"
   ],
   "note": "Refuted: columns of two or more dimensions are a TypeError and the file, opened for writing before, is left empty; NaN and infinities are all written as null; scalars of numpy and large integers are a TypeError. The part that holds is C250."
  },
  {
   "property": "C252",
   "status": "proved",
   "theorems": [
    "Verif.Descent.C252_derivative",
    "Verif.Descent.C252_sgd",
    "Verif.Descent.C252_sr",
    "Verif.Descent.C252_rescaled",
    "Verif.Descent.C252_adagrad",
    "Verif.Descent.C252_rmsprop",
    "Verif.Descent.C252_rmsprop_states",
    "Verif.Descent.C252_adagrad_states",
    "Verif.Descent.C252_first_step",
    "Verif.Descent.C252_momentum_history"
   ],
   "note": "The samples are assumed to represent |psi|^2 exactly (as for an exact sampler in the limit, or FullSumState); statistical fluctuations are not part of the claim. The transformations of optax are trusted as documented. Adam and Momentum with a history need not descend (C252_momentum_history)."
  },
  {
   "property": "C253",
   "status": "proved",
   "theorems": [
    "Verif.Descent.C253_derivative",
    "Verif.Descent.C253_sgd"
   ],
   "note": "The samples are assumed to represent |rho|^2 exactly; statistical fluctuations are not part of the claim. Other optimizers are not covered."
  },
  {
   "property": "C254",
   "status": "partial",
   "theorems": [
    "Verif.Descent.C254_uphill_refuted",
    "Verif.Descent.C254_gradient_partial"
   ],
   "note": "Refuted: the average derivative is averaged over the processes and then summed once more. For the dephasing of one spin on four processes every update of Sgd, whatever the learning rate, raises the cost. The exact gradient on n processes is given by C254_gradient_partial; on one process the claim holds (C253)."
  },
  {
   "property": "C255",
   "status": "proved",
   "theorems": [
    "Verif.SRStep.C255_projection",
    "Verif.SRStep.C255_reparametrisation",
    "Verif.SRStep.C255_solutions",
    "Verif.SRStep.C255_rescaled",
    "Verif.SRStep.C255_shift"
   ],
   "note": "About exact solutions of the linear system; the iterative solvers of jax are not modelled."
  },
  {
   "property": "C256",
   "status": "partial",
   "theorems": [
    "Verif.LocalOp.C256_add",
    "Verif.LocalOp.C256_sub_partial",
    "Verif.LocalOp.C256_sub_wrapper_partial",
    "Verif.LocalOp.C256_mul",
    "Verif.LocalOp.C256_numbers",
    "Verif.LocalOp.C256_neg_div_partial",
    "Verif.LocalOp.C256_sub_refuted",
    "Verif.LocalOp.C256_neg_div_refuted"
   ],
   "note": "Deviation: p - q raises TypeError whenever q is a wrapper (C256_sub_refuted; C256_sub_wrapper_partial: for every p), because LocalOperator.__sub__ negates q first and wrappers have no __neg__; -A.H and A.H / c raise as well (C256_neg_div_refuted). Sums, products and numbers hold without restriction (C256_add, C256_mul, C256_numbers); differences with a concrete right operand hold (C256_sub_partial)."
  },
  {
   "property": "C257",
   "status": "partial",
   "theorems": [
    "Verif.SpecialLazy.C257_adjoint",
    "Verif.SpecialLazy.C257_transpose",
    "Verif.SpecialLazy.C257_gram",
    "Verif.SpecialLazy.C257_square_partial",
    "Verif.SpecialLazy.C257_conjugate_partial",
    "Verif.SpecialLazy.C257_gram_adjoint",
    "Verif.SpecialLazy.C257_adjoint_twice",
    "Verif.SpecialLazy.C257_liouvillian",
    "Verif.SpecialLazy.C257_missing_partial",
    "Verif.SpecialLazy.C257_ising_partial",
    "Verif.SpecialLazy.C257_pauli",
    "Verif.SpecialLazy.C257_ising_complex_refuted",
    "Verif.SpecialLazy.C257_pauli_square_refuted",
    "Verif.SpecialLazy.C257_conjugate_refuted",
    "Verif.SpecialLazy.C257_square_conj_refuted"
   ],
   "note": "Adjoint, transpose and O†O are right whenever is_hermitian is right, which is proved for PauliStrings and for Ising with real parameters. Refuted: Ising with complex h claims to be hermitian, so o.H is o and o @ o is evaluated as O†O (1 instead of -1 for h=1j); P @ P raises TypeError for Pauli strings that are not hermitian; conjugate() and T.H raise NotImplementedError except for Ising with Python floats, T.collect() and Adjoint.collect() always."
  },
  {
   "property": "C258",
   "status": "proved",
   "theorems": [
    "Verif.Grf.C258_connected",
    "Verif.Grf.C258_distances",
    "Verif.Grf.C258_bipartite",
    "Verif.Grf.C258_odd_cycle",
    "Verif.Grf.C258_constructor",
    "Verif.Grf.C258_union",
    "Verif.Grf.C258_heisenberg"
   ],
   "note": "igraph's two searches are modelled as breadth-first searches; igraph's answer for a graph without nodes depends on its version and is left open."
  },
  {
   "property": "C259",
   "status": "proved",
   "theorems": [
    "Verif.Lat.C259_honeycomb_connected",
    "Verif.Lat.C259_kagome_connected",
    "Verif.Lat.C259_triangular_connected",
    "Verif.Lat.C259_diamond_connected",
    "Verif.Lat.C259_pyrochlore_connected",
    "Verif.Lat.C259_fcc_connected",
    "Verif.Lat.C259_bcc_connected",
    "Verif.Lat.C259_bcc",
    "Verif.Lat.C259_bcc_odd",
    "Verif.Lat.C259_grid",
    "Verif.Lat.C259_hypercube",
    "Verif.Lat.C259_honeycomb",
    "Verif.Lat.C259_diamond",
    "Verif.Lat.C259_kagome",
    "Verif.Lat.C259_triangular",
    "Verif.Lat.C259_pyrochlore",
    "Verif.Lat.C259_fcc"
   ],
   "note": "The grid that is a single open point is rejected by the constructor (C115)."
  },
  {
   "property": "C260",
   "status": "proved",
   "theorems": [
    "Verif.AutoReg.C260_dense",
    "Verif.AutoReg.C260_conv1d",
    "Verif.AutoReg.C260_conv2d"
   ],
   "note": "C52 says on which sites the outputs may depend; C119 the case of chains shorter than the dilation, for which the number of output sites is wrong."
  }
 ]
}
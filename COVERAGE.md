# What is modelled

Generated by `tools/coverage.py` from the citations in `lean/Verif/Model`.

## Files behind each module of the model

- `AutoReg`: `models/autoreg.py`, `nn/masked_linear.py`, `sampler/autoreg.py`, `sampler/exact.py`
- `BoseBuf`: `operator/_hamiltonian.py`
- `CharTable`: `utils/float.py`, `utils/group/_group.py`
- `CommonLattices`: `graph/common_lattices.py`, `graph/lattice.py`
- `Config`: `utils/config_flags.py`
- `Conv`: `nn/linear.py`
- `CustomRule`: `operator/_local_operator.py`, `sampler/rules/custom_numpy.py`
- `Dataclass`: `utils/struct/dataclass.py`
- `DataclassInit`: `utils/array.py`, `utils/group/_point_group.py`, `utils/struct/dataclass.py`
- `DenseGeneral`: `nn/linear.py`
- `Deprecation`: `graph/lattice.py`, `hilbert/_deprecations.py`, `hilbert/fock.py`, `nn/activation.py`, `optimizer/sr/deprecations.py`, `utils/deprecation.py`
- `DiscreteHilbert`: `hilbert/discrete_hilbert.py`, `hilbert/doubled_hilbert.py`, `hilbert/hilbert_index.py`, `hilbert/homogeneous.py`, `hilbert/tensor_hilbert.py`
- `Driver`: `callbacks/earlystopping.py`, `callbacks/timeout.py`, `driver/abstract_variational_driver.py`, `optimizer/preconditioner.py`
- `DriverLog`: `driver/abstract_variational_driver.py`, `logging/json_log.py`
- `ExactDiag`: `exact.py`, `operator/_abstract_operator.py`
- `ExactDynamics`: `_exact_dynamics.py`, `logging/json_log.py`
- `Expect`: `jax/_expect.py`, `vqs/mc_state.py`
- `ExpectStats`: `jax/_expect.py`, `vqs/base.py`, `vqs/mc_mixed_state.py`, `vqs/mc_state.py`
- `Flip`: `hilbert/random/custom.py`, `hilbert/random/doubled.py`, `hilbert/random/fock.py`, `hilbert/random/qubit.py`, `hilbert/random/spin.py`, `hilbert/random/tensor_hilbert.py`
- `FloatBins`: `utils/float.py`
- `Graph`: `graph/graph.py`
- `GraphAlgo`: `graph/graph.py`
- `GraphConn`: `graph/graph.py`
- `GridGroup`: `graph/common_lattices.py`, `graph/lattice.py`, `graph/space_group.py`
- `Group`: `utils/group/_group.py`, `utils/group/_permutation_group.py`, `utils/group/_semigroup.py`
- `GroupClasses`: `graph/common_lattices.py`, `graph/lattice.py`, `graph/space_group.py`, `utils/group/_group.py`, `utils/group/_permutation_group.py`, `utils/group/_point_group.py`, `utils/group/_semigroup.py`
- `GroupNames`: `utils/group/_point_group.py`
- `Hamiltonian`: `graph/graph.py`, `hilbert/fock.py`, `hilbert/spin.py`, `operator/_abstract_operator.py`, `operator/_graph_operator.py`, `operator/_hamiltonian.py`, `operator/_local_operator.py`, `operator/boson.py`
- `HashArray`: `jax/utils.py`, `utils/array.py`
- `HilbertAlgebra`: `hilbert/abstract_hilbert.py`, `hilbert/custom_hilbert.py`, `hilbert/discrete_hilbert.py`, `hilbert/fock.py`, `hilbert/homogeneous.py`, `hilbert/spin.py`, `hilbert/tensor_hilbert.py`
- `HilbertEq`: `hilbert/abstract_hilbert.py`, `hilbert/custom_hilbert.py`, `hilbert/discrete_hilbert.py`, `hilbert/doubled_hilbert.py`, `hilbert/fock.py`, `hilbert/homogeneous.py`, `hilbert/tensor_hilbert.py`
- `HilbertIndex`: `hilbert/discrete_hilbert.py`, `hilbert/hilbert_index.py`
- `History`: `logging/runtime_log.py`, `utils/history.py`
- `HistoryAttr`: `utils/history.py`
- `IrrepMatrices`: `utils/group/_group.py`
- `JitRule`: `operator/_hamiltonian.py`, `operator/_local_operator.py`, `operator/_pauli_strings.py`, `sampler/base.py`, `sampler/rules/hamiltonian.py`, `sampler/rules/hamiltonian_numpy.py`
- `JsonDefault`: `logging/json_log.py`
- `Keys`: `jax/utils.py`
- `Lattice`: `graph/common_lattices.py`, `graph/graph.py`, `graph/lattice.py`, `utils/float.py`
- `LatticeArgs`: `graph/common_lattices.py`, `graph/lattice.py`
- `LatticeGraph`: `graph/graph.py`, `graph/lattice.py`
- `LayerCtor`: `models/equivariant.py`, `nn/symmetric_linear.py`
- `Lazy`: `operator/_abstract_operator.py`, `operator/_lazy.py`, `operator/_local_operator.py`
- `LazyArith`: `operator/_lazy.py`, `operator/_local_operator.py`
- `LegacyCustom`: `legacy/sampler/numpy/custom_kernel.py`, `operator/_local_operator.py`
- `LegacyDriver`: `legacy/_qsr.py`, `legacy/_steadystate.py`, `legacy/_vmc.py`, `legacy/abstract_variational_driver.py`, `legacy/optimizer/numpy/sgd.py`
- `LegacyJax`: `legacy/machine/_jax_utils.py`, `legacy/machine/density_matrix/jax.py`, `legacy/optimizer/jax/_sr_onthefly.py`, `legacy/optimizer/jax/stochastic_reconfiguration.py`
- `LegacyJaxSampler`: `legacy/sampler/_kernels.py`, `legacy/sampler/abstract_sampler.py`, `legacy/sampler/custom_sampler.py`, `legacy/sampler/metropolis_exchange.py`, `legacy/sampler/metropolis_hamiltonian.py`, `legacy/sampler/metropolis_hastings.py`, `legacy/sampler/metropolis_local.py`
- `LegacyLog`: `legacy/logging/_json_log.py`, `legacy/logging/_tensorboard.py`, `legacy/random.py`, `legacy/stats/mc_stats.py`, `legacy/stats/mpi_stats.py`, `legacy/variational.py`, `logging/json_log_old.py`, `logging/tensorboard.py`, `stats/mc_stats.py`
- `LegacyMachine`: `legacy/machine/abstract_machine.py`, `legacy/machine/density_matrix/abstract_density_matrix.py`, `legacy/machine/density_matrix/diagonal.py`, `legacy/machine/density_matrix/rbm.py`, `legacy/machine/rbm.py`
- `LegacyOpt`: `legacy/abstract_variational_driver.py`, `legacy/optimizer/abstract_optimizer.py`, `legacy/optimizer/ams_grad.py`, `legacy/optimizer/jax/__init__.py`, `legacy/optimizer/jax/wrap.py`, `legacy/optimizer/numpy/ada_delta.py`, `legacy/optimizer/numpy/ada_grad.py`, `legacy/optimizer/numpy/ada_max.py`, `legacy/optimizer/numpy/ams_grad.py`, `legacy/optimizer/numpy/momentum.py`, `legacy/optimizer/numpy/rms_prop.py`, `legacy/optimizer/numpy/sgd.py`, `legacy/optimizer/sgd.py`, `legacy/optimizer/torch.py`
- `LegacySR`: `legacy/optimizer/numpy/stochastic_reconfiguration.py`
- `LegacySampler`: `legacy/random.py`, `legacy/sampler/abstract_sampler.py`, `legacy/sampler/exact_sampler.py`, `legacy/sampler/metropolis_exchange.py`, `legacy/sampler/numpy/exchange_kernel.py`, `legacy/sampler/numpy/hamiltonian_kernel.py`, `legacy/sampler/numpy/local_kernel.py`, `legacy/sampler/numpy/metropolis_hastings.py`, `legacy/sampler/numpy/metropolis_hastings_pt.py`
- `LegacyTorch`: `legacy/machine/torch.py`
- `LegacyTree`: `legacy/optimizer/jax/stochastic_reconfiguration.py`, `legacy/vmc_common.py`
- `Liouvillian`: `operator/_local_liouvillian.py`
- `LoadVars`: `vqs/experimental.py`
- `LocalOpHeap`: `operator/_local_operator.py`
- `LocalOperator`: `operator/_abstract_operator.py`, `operator/_local_operator.py`
- `LocalValues`: `operator/_der_local_values.py`, `operator/_local_cost_functions.py`, `operator/_local_values.py`, `vqs/mc_state.py`
- `LogPdf`: `jax/utils.py`, `sampler/base.py`
- `Logging`: `logging/json_log.py`, `logging/runtime_log.py`, `logging/state_log.py`
- `MCState`: `sampler/base.py`, `vqs/base.py`, `vqs/mc_mixed_state.py`, `vqs/mc_state.py`
- `MPS`: `models/mps.py`
- `Machines`: `models/ndm.py`, `models/rbm.py`, `nn/activation.py`
- `Metropolis`: `operator/_abstract_operator.py`, `sampler/base.py`, `sampler/metropolis.py`, `sampler/metropolis_numpy.py`, `sampler/rules/exchange.py`, `sampler/rules/hamiltonian.py`, `sampler/rules/hamiltonian_numpy.py`, `sampler/rules/local.py`, `sampler/rules/local_numpy.py`
- `MetropolisNumpy`: `sampler/metropolis.py`, `sampler/metropolis_numpy.py`, `sampler/rules/hamiltonian_numpy.py`, `sampler/rules/local_numpy.py`
- `ModuleTools`: `optim.py`, `utils/moduletools.py`, `utils/optional_deps.py`, `variational.py`
- `MpiPrim`: `utils/mpi/mpi.py`, `utils/mpi/primitives.py`
- `Numba4jax`: `jax/numba4jax.py`
- `Optax`: `driver/abstract_variational_driver.py`, `optimizer/__init__.py`
- `Padded`: `operator/_abstract_operator.py`, `operator/_der_local_values_jax.py`, `operator/_hamiltonian.py`, `operator/_lazy.py`, `operator/_local_cost_functions.py`, `operator/_local_operator.py`, `operator/_pauli_strings.py`
- `ParallelTempering`: `sampler/metropolis_pt.py`
- `PauliStrings`: `operator/_pauli_strings.py`
- `PointGroup`: `graph/space_group.py`, `utils/group/_group.py`, `utils/group/_point_group.py`, `utils/group/_semigroup.py`
- `PointGroups`: `utils/float.py`, `utils/group/_point_group.py`, `utils/group/axial.py`, `utils/group/cubic.py`, `utils/group/planar.py`
- `PyTree`: `jax/_vjp.py`, `jax/utils.py`
- `QGT`: `optimizer/qgt/qgt_jacobian_common.py`, `optimizer/qgt/qgt_jacobian_dense.py`, `optimizer/qgt/qgt_jacobian_dense_logic.py`, `optimizer/qgt/qgt_jacobian_pytree.py`, `optimizer/qgt/qgt_jacobian_pytree_logic.py`, `optimizer/qgt/qgt_onthefly.py`, `optimizer/qgt/qgt_onthefly_logic.py`, `stats/mpi_stats.py`
- `QGTMpi`: `jax/utils.py`, `optimizer/qgt/qgt_jacobian_dense.py`, `optimizer/qgt/qgt_jacobian_dense_logic.py`, `optimizer/qgt/qgt_jacobian_pytree.py`, `optimizer/qgt/qgt_jacobian_pytree_logic.py`, `optimizer/qgt/qgt_onthefly.py`, `optimizer/qgt/qgt_onthefly_logic.py`, `optimizer/solver/solvers.py`, `stats/mpi_stats.py`
- `RandomBatch`: `hilbert/abstract_hilbert.py`, `hilbert/custom_hilbert.py`, `hilbert/doubled_hilbert.py`, `hilbert/homogeneous.py`, `hilbert/random/base.py`, `hilbert/random/custom.py`, `hilbert/random/doubled.py`, `hilbert/random/fock.py`, `hilbert/random/qubit.py`, `hilbert/random/spin.py`, `hilbert/random/tensor_hilbert.py`, `hilbert/spin.py`
- `RandomState`: `hilbert/random/fock.py`, `hilbert/random/spin.py`
- `SR`: `optimizer/linear_operator.py`, `optimizer/preconditioner.py`, `optimizer/qgt/default.py`, `optimizer/qgt/qgt_jacobian_dense.py`, `optimizer/qgt/qgt_jacobian_pytree.py`, `optimizer/qgt/qgt_onthefly.py`, `optimizer/solver/solvers.py`, `optimizer/sr/api.py`, `utils/deprecation.py`
- `SamplerCtor`: `sampler/base.py`, `sampler/metropolis.py`, `sampler/metropolis_numpy.py`, `sampler/metropolis_pmap.py`, `sampler/metropolis_pt.py`, `sampler/rules/exchange.py`, `sampler/rules/hamiltonian.py`, `sampler/rules/hamiltonian_numpy.py`, `utils/struct/dataclass.py`
- `SpaceGroup`: `graph/space_group.py`, `nn/symmetric_linear.py`, `utils/group/_semigroup.py`
- `SpaceIrreps`: `graph/lattice.py`, `graph/space_group.py`, `utils/float.py`
- `Sparse`: `operator/_abstract_operator.py`
- `SpecialLazy`: `operator/_abstract_operator.py`, `operator/_hamiltonian.py`, `operator/_lazy.py`, `operator/_local_liouvillian.py`, `operator/_pauli_strings.py`
- `SpinBoson`: `hilbert/fock.py`, `hilbert/spin.py`, `operator/boson.py`, `operator/spin.py`
- `StateCtor`: `jax/utils.py`, `utils/jax.py`, `utils/model_frameworks/base.py`, `utils/model_frameworks/flax.py`, `utils/model_frameworks/haiku.py`, `utils/model_frameworks/jax.py`, `vqs/mc_state.py`
- `Stats`: `stats/mc_stats.py`, `stats/mpi_stats.py`, `utils/mpi/primitives.py`
- `StatsRepr`: `legacy/stats/mc_stats.py`, `stats/mc_stats.py`
- `SteadyState`: `exact.py`, `operator/_abstract_operator.py`
- `SymmFFT`: `nn/symmetric_linear.py`
- `SymmLinear`: `models/equivariant.py`, `models/rbm.py`, `nn/symmetric_linear.py`
- `ToArray`: `hilbert/discrete_hilbert.py`, `nn/utils.py`
- `Tools`: `tools/_common.py`, `tools/_cpu_info.py`, `tools/_mpi_info.py`, `tools/check_mpi.py`, `tools/info.py`
- `TreeOps`: `jax/utils.py`, `utils/mpi/primitives.py`
- `VMC`: `driver/steady_state.py`, `driver/vmc.py`, `optimizer/preconditioner.py`, `optimizer/qgt/qgt_jacobian_dense.py`, `optimizer/qgt/qgt_onthefly.py`, `vqs/base.py`, `vqs/mc_state.py`
- `Vjp`: `jax/_grad.py`, `jax/_vjp.py`, `vqs/mc_state.py`

## Functions no definition of the model cites

1211 of 1731 functions are cited.  Not cited are the following (with the line of the definition); most of them are texts for display (`__repr__`), properties that return an attribute, and wrappers that pass their arguments on.

- `__init__.py`: Vmc (70)
- `_exact_dynamics.py`: _MockMachine.__init__ (67), _MockMachine.save (70), PyExactTimePropagation.estimate (171), PyExactTimePropagation.t (175), PyExactTimePropagation.dt (182)
- `driver/abstract_variational_driver.py`: AbstractVariationalDriver._estimate_stats (98), AbstractVariationalDriver.reset (108), AbstractVariationalDriver.step_count (145)
- `driver/steady_state.py`: SteadyState.__repr__ (146)
- `driver/vmc.py`: VMC.__repr__ (155)
- `driver/vmc_common.py`: info (16)
- `graph/abstract_graph.py`: AbstractGraph.is_connected (28), AbstractGraph.is_bipartite (33), AbstractGraph.edges (38), AbstractGraph.edge_colors (56), AbstractGraph.nodes (62), AbstractGraph.distances (67), AbstractGraph.automorphisms (74), AbstractGraph.n_nodes (80), AbstractGraph.n_edges (85), AbstractGraph.adjacency_list (90)
- `graph/graph.py`: Graph.from_networkx (108), Graph.to_networkx (121), Graph.adjacency_list (130), Graph.nodes (149)
- `graph/lattice.py`: LatticeSite.__repr__ (62), Lattice.basis_vectors (410), Lattice.site_offsets (415), Lattice.ndim (420), Lattice.pbc (425), Lattice.extent (433), Lattice.sites (440), Lattice.basis_coords (450), Lattice.__repr__ (633), Lattice.draw (641)
- `graph/space_group.py`: product (68), SpaceGroupBuilder.little_group (199)
- `hilbert/abstract_hilbert.py`: AbstractHilbert.__init__ (56), AbstractHilbert.size (61), AbstractHilbert.is_indexable (142), AbstractHilbert._attrs (148)
- `hilbert/discrete_hilbert.py`: DiscreteHilbert.__init__ (52), DiscreteHilbert.shape (65), DiscreteHilbert.is_finite (70), DiscreteHilbert.n_states (82), DiscreteHilbert.states_at_index (105), DiscreteHilbert.states (174), DiscreteHilbert.is_indexable (201)
- `hilbert/doubled_hilbert.py`: DoubledHilbert.size (57), DoubledHilbert.shape (61), DoubledHilbert.is_finite (65), DoubledHilbert.local_size (69), DoubledHilbert.local_states (73), DoubledHilbert.states_at_index (81), DoubledHilbert.size_physical (89), DoubledHilbert.__repr__ (132)
- `hilbert/fock.py`: _sum_constraint (28), Fock.n_max (101), Fock.n_particles (107), Fock.__repr__ (150)
- `hilbert/hilbert_index.py`: HilbertIndex.local_states (49)
- `hilbert/homogeneous.py`: HomogeneousHilbert.local_size (96), HomogeneousHilbert.local_states (104), HomogeneousHilbert.states_at_index (109), HomogeneousHilbert.__repr__ (175)
- `hilbert/qubit.py`: Qubit.__repr__ (69)
- `hilbert/random/base.py`: random_state (27), random_state (53), random_state (89), flip_state_scalar (118)
- `hilbert/random/doubled.py`: flip_state_scalar (36)
- `hilbert/spin.py`: Spin.__repr__ (149)
- `hilbert/tensor_hilbert.py`: TensorHilbert.is_finite (68), TensorHilbert._sub_index (71)
- `jax/_grad.py`: _ensure_index (27), grad (35)
- `jax/numba4jax.py`: _xla_shape_to_abstract (95), _create_xla_target_capsule (101), _xla_translation_gpu (233)
- `legacy/_qsr.py`: Qsr.sr (97), Qsr.sr (101), Qsr.n_samples (107), Qsr.n_samples_data (133), Qsr.n_discard (150), Qsr._get_rand_ind (260), Qsr._estimate_stats (263), Qsr._get_mc_stats (270), Qsr.__repr__ (278), Qsr.info (283)
- `legacy/_steadystate.py`: SteadyState.sr (97), SteadyState.sr (101), SteadyState.n_samples (107), SteadyState.ldagl (111), SteadyState.n_samples_obs (119), SteadyState.n_discard (160), SteadyState.n_discard_obs (164), SteadyState._estimate_stats (285), SteadyState._get_mc_obs_stats (303), SteadyState.__repr__ (317), SteadyState.info (322)
- `legacy/_vmc.py`: Vmc.__init__ (21), Vmc.sr (83), Vmc.sr (87), Vmc.n_samples (93), Vmc.n_discard (114), Vmc.energy (202), Vmc._estimate_stats (209), Vmc._get_mc_stats (222), Vmc.__repr__ (234), Vmc.info (239)
- `legacy/abstract_variational_driver.py`: AbstractVariationalDriver._forward (71), AbstractVariationalDriver._backward (79), AbstractVariationalDriver.info (109), AbstractVariationalDriver.machine (116)
- `legacy/logging/_json_log.py`: _exists_json (6), _to_json (10)
- `legacy/logging/_tensorboard.py`: TBLog.__init__ (85), TBLog.__call__ (95), TBLog._flush_log (113), TBLog._flush_params (116), TBLog.flush (119)
- `legacy/machine/_jax_utils.py`: forward_scalar (29), tree_leaf_iscomplex (50), outdtype (62), outdtype_iscomplex (71)
- `legacy/machine/abstract_machine.py`: AbstractMachine.__init__ (8), AbstractMachine.log_val (18), AbstractMachine.init_random_parameters (32), AbstractMachine.jacobian_vector_prod (79), AbstractMachine.der_log (84), AbstractMachine.dtype (155), AbstractMachine.has_complex_parameters (159), AbstractMachine.n_par (163), AbstractMachine.state_dict (169), AbstractMachine.parameters (174), AbstractMachine.parameters (178), AbstractMachine.save (215), AbstractMachine.load (220), AbstractMachine.input_size (226), AbstractMachine.__repr__ (229)
- `legacy/machine/density_matrix/abstract_density_matrix.py`: AbstractDensityMatrix.__init__ (10), AbstractDensityMatrix.log_val (14), AbstractDensityMatrix.der_log (33), AbstractDensityMatrix.diagonal (49), AbstractDensityMatrix.input_size (146)
- `legacy/machine/density_matrix/diagonal.py`: Diagonal.__init__ (6), Diagonal.der_log (27), Diagonal.n_par (31), Diagonal.state_dict (36)
- `legacy/machine/density_matrix/flax.py`: Flax.__init__ (25), Flax._dminput (45), Flax.log_val (52), Flax.der_log (57), Flax.diagonal (62)
- `legacy/machine/density_matrix/jax.py`: Jax.__init__ (25), Jax.diagonal (62)
- `legacy/machine/density_matrix/rbm.py`: RbmSpin.state_dict (83)
- `legacy/machine/flax.py`: flax_init (28), Flax.__init__ (43), Flax.init_random_parameters (59), Flax._cast (62)
- `legacy/machine/jastrow.py`: Jastrow.n_par (111), Jastrow.der_log (149), JastrowSymm.__init__ (270)
- `legacy/machine/jax.py`: add_package_wrapper (38), Jax.__init__ (60), Jax.init_random_parameters (114), Jax._cast (124), Jax.n_par (137), Jax.log_val (141), Jax.jax_forward (156), Jax.der_log (159), MPSPeriodic (337), FanInSum2ModPhase (484)
- `legacy/machine/rbm.py`: RbmSpin.state_dict (234), RbmSpin.state_dict_with_prefix (237), RbmSpin.parameters (274), RbmSpinReal.__init__ (412), RbmSpinSymm.__init__ (478), RbmMultiVal.__init__ (529), RbmMultiVal.log_val (629), RbmMultiVal.der_log (644), RbmSpinPhase.n_par (742), RbmSpinPhase.state_dict (790), RbmSpinPhase.parameters (797)
- `legacy/machine/torch.py`: Torch.__init__ (22), Torch.assign_beta (46), Torch.save (50), Torch.load (54), Torch.n_par (79), Torch.state_dict (187), Torch.__repr__ (194), TorchLogCosh.__init__ (205), TorchView.__init__ (223), TorchView.forward (230)
- `legacy/optimizer/abstract_optimizer.py`: AbstractOptimizer.init (8), AbstractOptimizer.reset (32)
- `legacy/optimizer/ada_delta.py`: AdaDelta (6)
- `legacy/optimizer/ada_grad.py`: AdaGrad (6)
- `legacy/optimizer/ada_max.py`: AdaMax (6)
- `legacy/optimizer/jax/__init__.py`: _JaxAdaMax (20), _JaxSR (50)
- `legacy/optimizer/jax/_sr_onthefly.py`: tree_conj (14), tree_dot (24), tree_cast (38), tree_axpy (57)
- `legacy/optimizer/jax/stochastic_reconfiguration.py`: _jax_cg_solve (47), _jax_cg_solve_onthefly (60), _flatten_grad_and_oks (82), SR.setup (169), SR.compute_update_onthefly (249), SR.__repr__ (287), SR.info (296), SR.has_complex_parameters (315), SR.onthefly (319)
- `legacy/optimizer/jax/wrap.py`: Wrap.__init__ (9), Wrap.update (33), Wrap.reset (40)
- `legacy/optimizer/momentum.py`: Momentum (6)
- `legacy/optimizer/numpy/ada_delta.py`: AdaDelta.__repr__ (72)
- `legacy/optimizer/numpy/ada_grad.py`: AdaGrad.__repr__ (63)
- `legacy/optimizer/numpy/ada_max.py`: AdaMax.__repr__ (85)
- `legacy/optimizer/numpy/ams_grad.py`: AmsGrad.__repr__ (80)
- `legacy/optimizer/numpy/momentum.py`: Momentum.__repr__ (60)
- `legacy/optimizer/numpy/rms_prop.py`: RmsProp.__repr__ (64)
- `legacy/optimizer/numpy/sgd.py`: Sgd.__repr__ (27)
- `legacy/optimizer/numpy/stochastic_reconfiguration.py`: SR.setup (99), SR.last_rank (248), SR.last_covariance_matrix (252), SR.scale_invariant_regularization (261), SR.has_complex_parameters (324), SR.onthefly (328)
- `legacy/optimizer/rms_prop.py`: RmsProp (6)
- `legacy/optimizer/stochastic_reconfiguration.py`: SR (6)
- `legacy/optimizer/torch.py`: Torch.update (44), Torch.reset (50), Torch.__repr__ (53)
- `legacy/random.py`: choice (68)
- `legacy/sampler/abstract_sampler.py`: AbstractSampler.__iter__ (12), AbstractSampler.__next__ (16), AbstractSampler.reset (20), AbstractSampler.machine_pow (24), AbstractSampler.machine (28), AbstractSampler.machine_pow (39)
- `legacy/sampler/exact_sampler.py`: ExactSampler.__next__ (42), ExactSampler.machine_pow (64)
- `legacy/sampler/jax/metropolis_hastings.py`: MetropolisHastings.n_chains (89), MetropolisHastings.machine_pow (101)
- `legacy/sampler/numpy/custom_kernel.py`: _CustomKernel._check_operators (35), _CustomKernel._choose_and_return (72), _CustomKernel.random_state (86)
- `legacy/sampler/numpy/exchange_kernel.py`: _ExchangeKernel.transition (31), _ExchangeKernel.random_state (34)
- `legacy/sampler/numpy/hamiltonian_kernel.py`: _HamiltonianKernel.__init__ (9)
- `legacy/sampler/numpy/metropolis_hastings_pt.py`: MetropolisHastingsPt.n_replicas (40), MetropolisHastingsPt.machine_pow (68), MetropolisHastingsPt.machine_pow (72), MetropolisHastingsPt.sweep_size (76), MetropolisHastingsPt.sweep_size (80)
- `legacy/stats/_sum_inplace.py`: sum_inplace (13), sum_inplace_scalar (36), sum_inplace_MPI (49)
- `legacy/vmc_common.py`: info (4)
- `logging/json_log.py`: _exists_json (27), JsonLog.__repr__ (210)
- `logging/runtime_log.py`: RuntimeLog.__init__ (26), RuntimeLog.data (38), RuntimeLog.__getitem__ (44), RuntimeLog.flush (47)
- `logging/state_log.py`: save_binary_to_tar (26), StateLog.close (149), StateLog.__del__ (180), StateLog.flush (184), StateLog.__repr__ (187), StateLog.__str__ (190)
- `logging/tensorboard.py`: TBLog.__init__ (112), TBLog._flush_log (135), TBLog._flush_params (138), TBLog.flush (141)
- `models/autoreg.py`: ARNN.conditionals (49), ARNNDense.setup (85), ARNNDense.conditionals (106), ARNNDense.__call__ (109), ARNNConv1D.setup (138), ARNNConv1D.conditionals (161), ARNNConv1D.__call__ (164), _local_states_to_numbers (234)
- `models/equivariant.py`: identity (41), unit_normal_scaling (45), GCNN_Parity_FFT.setup (285), GCNN_Parity_Irrep.setup (433)
- `models/rbm.py`: RBMMultiVal.setup (170)
- `nn/activation.py`: log_sinh (58), log_tanh (62)
- `nn/linear.py`: _canonicalize_tuple (42)
- `nn/masked_linear.py`: wrap_kernel_init (27)
- `nn/module.py`: JaxWrapModule.__call__ (38), wrap_jax (48)
- `nn/symmetric_linear.py`: unit_normal_scaling (32)
- `operator/_abstract_operator.py`: compute_row_indices (29), AbstractOperator.dtype (84), AbstractOperator.max_conn_size (128), AbstractOperator._get_conn_flattened_closure (299), AbstractOperator.__repr__ (310), AbstractOperator._op__rmatmul__ (344)
- `operator/_abstract_super_operator.py`: AbstractSuperOperator.__init__ (29), AbstractSuperOperator.hilbert_physical (39)
- `operator/_graph_operator.py`: GraphOperator.graph (126), GraphOperator.__repr__ (130)
- `operator/_hamiltonian.py`: SpecialHamiltonian.to_local_operator (32), SpecialHamiltonian.conjugate (37), Ising.h (153), Ising.J (158), Ising.edges (163), Ising.dtype (171), Ising.__repr__ (353), Heisenberg.J (429), Heisenberg.uses_sign_rule (434), Heisenberg.__repr__ (437), BoseHubbard.is_hermitian (504), BoseHubbard.dtype (508), BoseHubbard.edges (512), BoseHubbard.U (516), BoseHubbard.V (521), BoseHubbard.J (526), BoseHubbard.mu (531), BoseHubbard.copy (535)
- `operator/_lazy.py`: Transpose.dtype (60), Transpose.__repr__ (82), Adjoint.dtype (105), Adjoint.__repr__ (121), Squared.dtype (165), Squared.__repr__ (188)
- `operator/_local_cost_functions.py`: local_cost_and_grad_function (149), _local_costs_and_grads_function (169), local_costs_and_grads_function (178)
- `operator/_local_liouvillian.py`: LocalLiouvillian.dtype (83), LocalLiouvillian.hamiltonian (91), LocalLiouvillian.hamiltonian_nh (96), LocalLiouvillian.jump_operators (101), LocalLiouvillian.max_conn_size (106)
- `operator/_local_operator.py`: resize (79), LocalOperator.dtype (288), LocalOperator.size (292), LocalOperator.is_hermitian (296), LocalOperator.constant (313), LocalOperator.n_operators (317), LocalOperator.__repr__ (1132)
- `operator/_local_values.py`: _local_values_impl (35), _local_values_op_op_impl (58)
- `operator/_pauli_strings.py`: PauliStrings.dtype (165), PauliStrings.max_conn_size (175)
- `optimizer/linear_operator.py`: LinearOperator.__matmul__ (65), LinearOperator.__add__ (68), LinearOperator.to_dense (103), LinearOperator.__call__ (113), LinearOperator.__array__ (117), LinearOperator.__post_init__ (120)
- `optimizer/preconditioner.py`: identity_preconditioner (33), LinearPreconditioner.__repr__ (78)
- `optimizer/qgt/default.py`: QGTAuto.__repr__ (105)
- `optimizer/qgt/qgt_jacobian_dense.py`: QGTJacobianDenseT.__matmul__ (132), QGTJacobianDenseT.to_dense (138)
- `optimizer/qgt/qgt_jacobian_dense_logic.py`: _tree_reassemble_complex (55), tree_to_reim (63), ravel (176)
- `optimizer/qgt/qgt_jacobian_pytree.py`: QGTJacobianPyTreeT.__matmul__ (136), QGTJacobianPyTreeT.to_dense (154)
- `optimizer/qgt/qgt_jacobian_pytree_logic.py`: single_sample (34), _jacobian_cplx (72), jacobian_cplx (93), stack_jacobian (111)
- `optimizer/qgt/qgt_onthefly.py`: QGTOnTheFlyT.__post_init__ (89), QGTOnTheFlyT.__matmul__ (96), QGTOnTheFlyT.to_dense (102), _solve (161)
- `sampler/autoreg.py`: ARDirectSamplerState.__repr__ (55), ARDirectSampler.is_exact (64), ARDirectSampler._init_cache (67), ARDirectSampler._init_state (75), ARDirectSampler._reset (83), ARDirectSampler._sample_chain (86), ARDirectSampler._sample_next (89)
- `sampler/base.py`: autodoc (44), Sampler.is_exact (151), Sampler.init_state (180), Sampler._init_state (322), Sampler._reset (332), Sampler._sample_next (342)
- `sampler/exact.py`: ExactSamplerState.__repr__ (34), ExactSampler.is_exact (51), ExactSampler._sample_chain (95), ExactSampler.__repr__ (107), ExactSampler.__str__ (116)
- `sampler/metropolis.py`: MetropolisSamplerState.__repr__ (192), MetropolisSampler.__repr__ (352), MetropolisSampler.__str__ (365)
- `sampler/metropolis_numpy.py`: MetropolisNumpySamplerState.acceptance (61), MetropolisNumpySamplerState.acceptance_ratio (79), MetropolisNumpySamplerState.n_accepted (98), MetropolisNumpySamplerState.__repr__ (102), apply_model (114), MetropolisSamplerNumpy.__repr__ (240), MetropolisSamplerNumpy.__str__ (253), MetropolisCustomNumpy (298)
- `sampler/metropolis_pmap.py`: MetropolisSamplerPmapState._repr_pretty_ (51), MetropolisSamplerPmap.n_chains_per_device (161), MetropolisSamplerPmap._repr_pretty_ (219)
- `sampler/metropolis_pt.py`: MetropolisPtSamplerState.__repr__ (51), MetropolisPtSampler.n_batches (134), MetropolisLocalPt (438), MetropolisExchangePt (480), MetropolisHamiltonianPt (539)
- `sampler/rules/custom_numpy.py`: CustomRuleNumpy.init_state (66)
- `sampler/rules/exchange.py`: ExchangeRule_.__repr__ (78)
- `sampler/rules/hamiltonian.py`: HamiltonianRule.__repr__ (105)
- `sampler/rules/hamiltonian_numpy.py`: HamiltonianRuleNumpy.__repr__ (85)
- `sampler/rules/local.py`: LocalRule.__repr__ (53)
- `sampler/rules/local_numpy.py`: LocalRuleNumpy.init_state (31), LocalRuleNumpy.__repr__ (43)
- `stats/mc_stats.py`: _block_variance (120), _batch_variance (129)
- `tools/info.py`: info (42)
- `utils/group/_group.py`: FiniteGroup.__hash__ (44), FiniteGroup._canonical (47), random (356), product (366)
- `utils/group/_permutation_group.py`: Permutation.__init__ (32), Permutation.__hash__ (47), Permutation.__eq__ (50), Permutation._name (57), Permutation.__repr__ (60), Permutation.__array__ (66), PermutationGroup.__hash__ (97), PermutationGroup.remove_duplicates (117), PermutationGroup.shape (187)
- `utils/group/_point_group.py`: PGSymmetry.affine_matrix (71), PGSymmetry.ndim (92), PGSymmetry.is_proper (97), PGSymmetry.is_symmorphic (102), PGSymmetry.__hash__ (120), PGSymmetry.__eq__ (123), PGSymmetry.__repr__ (147), PointGroup.is_symmorphic (384), PointGroup.matrix (405), PointGroup.translation (415), PointGroup._canonical_from_affine_matrix (435), PointGroup._canonical (448), PointGroup.matrices (463), PointGroup.translations (466), PointGroup.__array__ (469), PointGroup.remove_duplicates (472), PointGroup.shape (573)
- `utils/group/_semigroup.py`: FiniteSemiGroup.__getitem__ (153), FiniteSemiGroup.__iter__ (159), FiniteSemiGroup.__len__ (162)
- `utils/history.py`: raise_if_len_not_match (26), History.__str__ (265)
- `utils/jax.py`: get_afun_if_module (20), WrappedApplyFun.__repr__ (35), wrap_afun (39)
- `utils/model_frameworks/base.py`: ModuleFramework.is_loaded (25), ModuleFramework.is_my_module (30), ModuleFramework.wrap (35), ModuleFramework.wrap_params (39), ModuleFramework.unwrap_params (44), UnknownFramework.unwrap_params (78)
- `utils/model_frameworks/flax.py`: FlaxFramework.is_loaded (26), FlaxFramework.wrap_params (43), FlaxFramework.unwrap_params (47)
- `utils/model_frameworks/haiku.py`: HaikuFramework.is_loaded (59), HaikuFramework.wrap_params (81), HaikuFramework.unwrap_params (85)
- `utils/moduletools.py`: rename_class (45)
- `utils/mpi/primitives.py`: mpi_prod_jax (80), mpi_any_jax (151), mpi_max_jax (190), mpi_allgather_jax (235)
- `utils/numbers.py`: dtype (10), dtype (15), is_scalar (20), is_scalar (25), is_scalar (30)
- `utils/seed.py`: random_seed (18)
- `utils/struct/dataclass.py`: _cache_name (61), _hash_cache_name (65), _compute_cache_name (69), field (90)
- `utils/struct/utils.py`: _set_new_attribute (8), _create_fn (17), get_class_globals (50)
- `vqs/base.py`: VariationalState.hilbert (59), VariationalState.parameters (66), VariationalState.model_state (85), VariationalState.reset (144), VariationalState.expect (151), VariationalState.grad (164), VariationalState.expect_and_grad (179), VariationalState.quantum_geometric_tensor (207), VariationalState.to_array (221), VariationalMixedState.__init__ (236), VariationalMixedState.hilbert_physical (241), VariationalMixedState.to_matrix (283)
- `vqs/mc_mixed_state.py`: apply_diagonal (46), MCMixedState.diagonal (174), MCMixedState.to_matrix (290), MCMixedState.__repr__ (295), MCMixedState.__str__ (310)
- `vqs/mc_state.py`: apply (72), MCState.n_samples (273), MCState.chain_length (299), MCState.n_discard_per_chain (313), MCState.n_discard (344), MCState.n_discard (358), MCState.log_value (433), MCState.quantum_geometric_tensor (560), MCState.to_array (576), MCState.__repr__ (581), MCState.__str__ (592)

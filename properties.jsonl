{"id": "C01", "title": "distribute_sampling: announced total equals what the ranks produce, and covers the request", "statement": "For mpi.distribute_sampling(numSamples, localDevices=d, numChainsPerDevice=c) called on every rank, all ranks return the same global count; that count equals the sum over ranks of (returned samples per chain)*d*c; it is at least numSamples and exceeds it by less than commSize*d*c. Without localDevices the per-rank counts sum to exactly numSamples and differ by at most one.", "quantifier": "every number of samples, number of ranks >= 1, rank, number of devices >= 1 and chains >= 1", "why_tests_cant": "A test runs with one or two fixed rank counts; the rounding identity must hold for every combination of remainder, ranks, devices and chains.", "anchors": ["jVMC/mpi_wrapper.py:distribute_sampling"]}
{"id": "C02", "title": "first_sample_id: the ranks' id ranges tile the sample range", "statement": "After distribute_sampling(N) without devices, the intervals [first_sample_id, first_sample_id + myCount) of the ranks are disjoint and their union is exactly 0..N-1, in rank order.", "quantifier": "every N and every number of ranks >= 1, all ranks", "why_tests_cant": "Tiling is a statement about all ranks at once and all remainders; unit tests run in a single process.", "anchors": ["jVMC/mpi_wrapper.py:first_sample_id", "jVMC/mpi_wrapper.py:distribute_sampling"]}
{"id": "C03", "title": "global_sum and global_mean do not depend on how samples are distributed", "statement": "mpi.global_sum(data) (global_mean(data,p)) returned on every rank equals the plain sum (p-weighted sum) over all samples on all ranks and devices; re-distributing the same samples over other ranks/devices leaves the result unchanged.", "quantifier": "every number of ranks, devices per rank and samples per device (also unequal per rank), every data and weights", "why_tests_cant": "Must hold for every partition of the sample set; MPI tests fix one layout.", "anchors": ["jVMC/mpi_wrapper.py:global_sum", "jVMC/mpi_wrapper.py:global_mean"]}
{"id": "C04", "title": "global_variance is the weighted variance over all ranks and devices", "statement": "mpi.global_variance(data,p) equals sum_j p_j |X_j - mean|^2 summed over all samples of all devices and ranks.", "quantifier": "every number of ranks and devices, every data and weights", "why_tests_cant": "Depends on the device count, which the test-suite fixes to one.", "anchors": ["jVMC/mpi_wrapper.py:global_variance", "jVMC/mpi_wrapper.py:_sum_sq"]}
{"id": "C05", "title": "global_covariance is the covariance matrix", "statement": "mpi.global_covariance(data,p) equals sum_j p_j X_j X_j^dagger minus mean mean^dagger, as documented.", "quantifier": "every data set and weights", "why_tests_cant": "The defect is invisible on data with vanishing mean; must hold for all data.", "anchors": ["jVMC/mpi_wrapper.py:global_covariance"]}
{"id": "C06", "title": "communication-time accounting loses nothing", "statement": "The sum of all values returned by mpi.get_communication_time() so far plus the time not yet reported equals the total time recorded by MPI reductions since the start, for every interleaving of reductions and queries; each query resets the counter.", "quantifier": "every history of timed reductions and queries", "why_tests_cant": "A statement about arbitrary call histories.", "anchors": ["jVMC/mpi_wrapper.py:get_communication_time"]}
{"id": "C07", "title": "bcast_unknown_size delivers the root's array to every rank", "statement": "mpi.bcast_unknown_size(data, root) returns the root's array on every rank, for every length and root; a non-float64 root array raises TypeError on the root and then no rank is left waiting in a collective.", "quantifier": "every number of ranks, root, array length and dtype", "why_tests_cant": "Deadlock freedom quantifies over all ranks and their schedules.", "anchors": ["jVMC/mpi_wrapper.py:bcast_unknown_size"]}
{"id": "C08", "title": "device reconfiguration: compiled reductions always match the current device list", "statement": "After jVMC.set_pmap_devices(devs) every later MPI reduction runs on kernels compiled for exactly the current device list, and single-device results are placed on a device of that list.", "quantifier": "every history of set_pmap_devices calls and reductions", "why_tests_cant": "History-dependent caching; tests never change the device list.", "anchors": ["jVMC/global_defs.py:set_pmap_devices", "jVMC/global_defs.py:pmap_devices_updated", "jVMC/mpi_wrapper.py:jit_my_stuff"]}
{"id": "C09", "title": "ExactSampler enumerates every basis configuration exactly once", "statement": "Over all ranks and devices, the configurations to which ExactSampler assigns non-zero weight are exactly the lDim^N basis configurations, each exactly once (padding entries carry weight zero).", "quantifier": "every N, lDim >= 2, number of ranks and devices", "why_tests_cant": "Depends on every combination of ranks, devices and Hilbert space size.", "anchors": ["jVMC/sampler.py:ExactSampler.get_basis", "jVMC/sampler.py:ExactSampler._get_basis_ldim2", "jVMC/sampler.py:ExactSampler._get_basis", "jVMC/sampler.py:ExactSampler._compute_probabilities"]}
{"id": "C10", "title": "ExactSampler probabilities depend only on the current wave function, not on call history", "statement": "ExactSampler.sample() returns p(s) = exp(Re log psi(s)/logProbFactor) / sum over the basis; the probabilities are non-negative, sum to one and do not depend on the parameters used in earlier calls.", "quantifier": "every wave function, logProbFactor != 0 and every history of earlier sample calls", "why_tests_cant": "The sampler caches a norm between calls; history independence quantifies over all histories.", "anchors": ["jVMC/sampler.py:ExactSampler.sample", "jVMC/sampler.py:ExactSampler._normalize"]}
{"id": "C11", "title": "sampling with foreign parameters leaves the wave function unchanged", "statement": "ExactSampler.sample(parameters=P) and MCSampler.sample(parameters=P) evaluate at P and afterwards psi.get_parameters() is what it was before the call.", "quantifier": "every parameter vector P of the right length, every prior state, both sampler kinds", "why_tests_cant": "Quantifies over all parameter values and prior histories.", "anchors": ["jVMC/sampler.py:ExactSampler.sample", "jVMC/sampler.py:MCSampler.sample", "jVMC/sampler.py:MCSampler._get_samples_mcmc"]}
{"id": "C12", "title": "MCSampler returns at least the requested number of samples and reports the true number", "statement": "MCSampler.sample(numSamples=n, multipleOf=m) returns in total (over ranks and devices) at least n configurations, a multiple of m per device, and get_last_number_of_samples() equals the number returned.", "quantifier": "every n, m >= 1, number of chains, devices, ranks; Markov chain and direct sampling", "why_tests_cant": "Arithmetic over all rounding combinations.", "anchors": ["jVMC/sampler.py:MCSampler._get_samples_mcmc", "jVMC/sampler.py:MCSampler._get_samples_gen", "jVMC/sampler.py:MCSampler.get_last_number_of_samples"]}
{"id": "C13", "title": "update proposals stay in the configuration space", "statement": "propose_spin_flip, propose_spin_flip_Z2, propose_spin_flip_zeroMag map configurations with entries in {0,1} to such configurations; propose_POVM_outcome maps entries in {0,..,3} to entries in {0,..,3}.", "quantifier": "every configuration and every random draw", "why_tests_cant": "All configurations and all random keys.", "anchors": ["jVMC/sampler.py:propose_spin_flip", "jVMC/sampler.py:propose_POVM_outcome", "jVMC/sampler.py:propose_spin_flip_Z2", "jVMC/sampler.py:propose_spin_flip_zeroMag"]}
{"id": "C14", "title": "update proposals are symmetric", "statement": "For the shipped update proposers the number of equally likely random draws taking s to s' equals the number taking s' to s, the precondition for the Metropolis rule used.", "quantifier": "every pair of configurations (of the sector the proposer is meant for), every system size", "why_tests_cant": "Symmetry over all pairs of configurations.", "anchors": ["jVMC/sampler.py:propose_spin_flip", "jVMC/sampler.py:propose_POVM_outcome", "jVMC/sampler.py:propose_spin_flip_Z2", "jVMC/sampler.py:propose_spin_flip_zeroMag"]}
{"id": "C15", "title": "propose_spin_flip_zeroMag conserves zero magnetisation", "statement": "Started from a configuration with equally many zeros and ones every proposal has equally many zeros and ones, hence so has every configuration the sampler ever returns.", "quantifier": "every even number of sites, every balanced configuration, every random draw and any number of updates", "why_tests_cant": "All configurations, draws and chain lengths.", "anchors": ["jVMC/sampler.py:propose_spin_flip_zeroMag"]}
{"id": "C16", "title": "the Markov chain is reversible with respect to |psi|^mu", "statement": "One Metropolis update of MCSampler with a symmetric proposer satisfies detailed balance for the distribution proportional to exp(mu Re log psi), hence that distribution is stationary under any number of sweeps and any number of chains.", "quantifier": "every wave function, mu, finite configuration space and symmetric proposer; any number of updates", "why_tests_cant": "Stochastic semantics over all wave functions; a histogram test cannot establish it.", "anchors": ["jVMC/sampler.py:MCSampler._sweep", "jVMC/sampler.py:MCSampler._get_samples"]}
{"id": "C17", "title": "the chain's cached log-probability always belongs to its current state", "statement": "During MCSampler.sample the cached acceptance log-probability of every chain equals mu Re log psi of that chain's current configuration under the parameters in use, in every call, also after parameters changed between calls.", "quantifier": "every history of sample calls with arbitrary parameters, every sequence of random draws, every number of chains", "why_tests_cant": "An invariant over all histories.", "anchors": ["jVMC/sampler.py:MCSampler._mc_init", "jVMC/sampler.py:MCSampler._sweep"]}
{"id": "C18", "title": "acceptance ratio bookkeeping", "statement": "After MCSampler.sample the number of proposals is (thermalisation + samples per chain)*sweepSteps*numChains per device, accepted <= proposed, and acceptance_ratio() lies in [0,1].", "quantifier": "every sampler configuration, history and random draws", "why_tests_cant": "All histories and draws.", "anchors": ["jVMC/sampler.py:MCSampler._sweep", "jVMC/sampler.py:MCSampler.acceptance_ratio"]}
{"id": "C19", "title": "sample weights turn the sampled distribution into the Born distribution", "statement": "The weights returned by MCSampler.sample are positive, sum to one over all ranks and devices, and are proportional to |psi|^(1/logProbFactor) / |psi|^mu, so weighting the chain's distribution gives the target distribution; for direct sampling the weights sum to one.", "quantifier": "every wave function, mu, logProbFactor, sample set, ranks, devices, multipleOf", "why_tests_cant": "All real inputs and layouts.", "anchors": ["jVMC/sampler.py:MCSampler.sample", "jVMC/sampler.py:MCSampler._get_samples_gen"]}
{"id": "C20", "title": "no random key is consumed twice", "statement": "In an idealised splitting model no PRNG key is used for two draws, across ranks, devices, chains, update steps and successive sample calls, including after set_random_key.", "quantifier": "every history of sample calls, every number of ranks, devices, chains, steps", "why_tests_cant": "Freshness over unbounded histories.", "anchors": ["jVMC/sampler.py:MCSampler.__init__", "jVMC/sampler.py:MCSampler.set_random_key", "jVMC/sampler.py:MCSampler._sweep", "jVMC/sampler.py:MCSampler._get_samples_gen"]}
{"id": "C21", "title": "batch size does not change wave-function values", "statement": "psi(s) and psi.gradients(s) give for every sample the value of the un-batched network on that sample, in the original order, for every batchSize >= 1 and every number of samples.", "quantifier": "every function, number of samples and batch size >= 1", "why_tests_cant": "All sample counts and batch sizes including remainders.", "anchors": ["jVMC/vqs.py:create_batches", "jVMC/vqs.py:eval_batched", "jVMC/vqs.py:NQS._eval", "jVMC/vqs.py:NQS._get_gradients"]}
{"id": "C22", "title": "parameter vectors round-trip", "statement": "psi.set_parameters(v); psi.get_parameters() == v for every v of the right length, and psi.set_parameters(psi.get_parameters()) leaves every network parameter unchanged, for real and complex networks and every parameter tree.", "quantifier": "every parameter tree (any number and size of leaves), real or complex, every vector", "why_tests_cant": "All tree shapes and values.", "anchors": ["jVMC/vqs.py:NQS.get_parameters", "jVMC/vqs.py:NQS.set_parameters", "jVMC/vqs.py:NQS._param_unflatten"]}
{"id": "C23", "title": "gradient components are the derivatives along the entries of the parameter vector", "statement": "The k-th entry of psi.gradients(s) is the derivative of log psi(s) with respect to the k-th entry of psi.get_parameters(), for real parameters, holomorphic and non-holomorphic complex parameters.", "quantifier": "every differentiable network, parameter point, direction k and tree shape", "why_tests_cant": "All networks and layouts; finite-difference tests sample a few.", "anchors": ["jVMC/vqs.py:flat_gradient", "jVMC/vqs.py:flat_gradient_real", "jVMC/vqs.py:flat_gradient_cpx_nonholo", "jVMC/vqs.py:flat_gradient_holo", "jVMC/vqs.py:NQS._param_unflatten"]}
{"id": "C24", "title": "gradient mode selection matches the parameter vector", "statement": "After initialisation the length of psi.gradients(s) per sample equals the length of psi.get_parameters(), and the holomorphic mode is selected only if the Cauchy-Riemann equations hold at the probe point.", "quantifier": "every network, probe configuration and initial parameters", "why_tests_cant": "Depends on values of the gradient at initialisation for all networks.", "anchors": ["jVMC/vqs.py:NQS.init_net", "jVMC/vqs.py:NQS.gradients"]}
{"id": "C25", "title": "using or setting parameters before initialisation is reported", "statement": "set_parameters and update_parameters before the network is initialised: set_parameters raises RuntimeError; update_parameters sets the parameters to deltaP as documented; after a successful call to psi(s) both work and update_parameters(d) adds d.", "quantifier": "every history of calls on an NQS object", "why_tests_cant": "Protocol over all call histories.", "anchors": ["jVMC/vqs.py:NQS.set_parameters", "jVMC/vqs.py:NQS.update_parameters", "jVMC/vqs.py:NQS.init_net"]}
{"id": "C26", "title": "operator strings: returned matrix elements are those of the ordered operator product", "statement": "For an operator built from strings of local operators, get_s_primes returns for each s configurations s' and elements such that summing elements with equal s' gives <s|O|s'> with O the sum of prefactor times ordered product of the local operators.", "quantifier": "every operator, every configuration, number of sites and strings", "why_tests_cant": "All strings and configurations.", "anchors": ["jVMC/operator/branch_free.py:BranchFreeOperator.compile", "jVMC/operator/branch_free.py:BranchFreeOperator._get_s_primes"]}
{"id": "C27", "title": "fermionic operators obey the canonical anticommutation relations", "statement": "With creation(i), annihilation(j): {c_i, c_j^dagger} = delta_ij, {c_i, c_j} = 0, {c_i^dagger, c_j^dagger} = 0 as operators on occupation configurations, and number(i) = creation(i)annihilation(i).", "quantifier": "every chain length, sites i, j and occupation configuration", "why_tests_cant": "Sign bookkeeping for all sites and all configurations.", "anchors": ["jVMC/operator/branch_free.py:creation", "jVMC/operator/branch_free.py:annihilation", "jVMC/operator/branch_free.py:number", "jVMC/operator/branch_free.py:BranchFreeOperator._get_s_primes"]}
{"id": "C28", "title": "dropping vanishing matrix elements does not change the operator", "statement": "get_s_primes returns exactly the connected configurations with non-vanishing element (plus zero padding), so that the local estimator equals the full sum over all generated elements.", "quantifier": "every list of matrix elements and every sample batch", "why_tests_cant": "All element patterns and values.", "anchors": ["jVMC/operator/base.py:Operator._find_nonzero", "jVMC/operator/base.py:Operator.set_zero_to_zero", "jVMC/operator/base.py:Operator.get_s_primes"]}
{"id": "C29", "title": "local estimators do not depend on the evaluation batch size", "statement": "get_O_loc with batching returns for every sample the un-batched local estimator in the original order; no evaluated batch exceeds the configured size.", "quantifier": "every number of samples, batch size >= 1, operator, wave function (logarithmic or not)", "why_tests_cant": "All sample counts and batch sizes.", "anchors": ["jVMC/operator/base.py:Operator.get_O_loc", "jVMC/operator/base.py:Operator.get_O_loc_batched"]}
{"id": "C30", "title": "local estimator of a non-logarithmic wave function", "statement": "For psi.logarithmic == False, get_O_loc(samples, psi) equals sum_s' O_{s,s'} psi(s')/psi(s).", "quantifier": "every operator and wave function with non-zero amplitudes", "why_tests_cant": "All wave functions.", "anchors": ["jVMC/operator/base.py:Operator.get_O_loc", "jVMC/operator/base.py:Operator.get_O_loc_batched"]}
{"id": "C31", "title": "operator-string algebra", "statement": "Multiplying operator strings and scalar/callable prefactors concatenates the local operators in order and multiplies the prefactors, for every argument tuple the prefactors are evaluated with.", "quantifier": "every pair of strings, every number of prefactors and every call-argument tuple", "why_tests_cant": "All strings and all argument tuples.", "anchors": ["jVMC/operator/branch_free.py:OpStr", "jVMC/operator/branch_free.py:LocalOp", "jVMC/operator/branch_free.py:scal_opstr", "jVMC/operator/branch_free.py:_prod_fun"]}
{"id": "C32", "title": "prefactor evaluation is independent of the number of MPI processes", "statement": "The vector of prefactors of a BranchFreeOperator evaluated with 50 or more callable prefactors in parallel over the ranks equals the sequentially evaluated one.", "quantifier": "every number of strings, positions of prefactors, number of ranks", "why_tests_cant": "All chunkings.", "anchors": ["jVMC/operator/branch_free.py:BranchFreeOperator.compile"]}
{"id": "C33", "title": "operators are recompiled whenever needed", "statement": "Every evaluation of an operator uses kernels compiled from all terms added so far and for the number of arguments passed, for every interleaving of add and evaluation calls.", "quantifier": "every history of add / get_s_primes / get_O_loc calls", "why_tests_cant": "Cache staleness over all histories.", "anchors": ["jVMC/operator/base.py:Operator.get_s_primes", "jVMC/operator/branch_free.py:BranchFreeOperator.add", "jVMC/operator/povm.py:POVMOperator.add"]}
{"id": "C34", "title": "get_estimator_function agrees with get_O_loc", "statement": "op.get_estimator_function(psi,*args)(params,s,*args) equals op.get_O_loc at psi with these parameters, for every Operator subclass.", "quantifier": "every operator and wave function", "why_tests_cant": "All operators.", "anchors": ["jVMC/operator/base.py:Operator.get_estimator_function"]}
{"id": "C35", "title": "branch-free operators accept configurations of every shape", "statement": "BranchFreeOperator matrix elements depend only on the flattened configuration, for every configuration shape (1D chains, 2D lattices).", "quantifier": "every configuration shape", "why_tests_cant": "All shapes.", "anchors": ["jVMC/operator/branch_free.py:BranchFreeOperator._get_s_primes"]}
{"id": "C36", "title": "POVM elements form a measurement", "statement": "The SIC-POVM elements returned by get_M sum to the identity, are Hermitian, and their overlap matrix is invertible, for every rotation (theta, phi).", "quantifier": "all real rotation angles", "why_tests_cant": "A continuum of angles.", "anchors": ["jVMC/operator/povm.py:get_M", "jVMC/operator/povm.py:get_paulis", "jVMC/operator/povm.py:POVM"]}
{"id": "C37", "title": "POVM dynamics conserve probability", "statement": "Operators produced by matrix_to_povm in modes unitary and dissipative have vanishing column sums, so the total probability of the outcomes is conserved.", "quantifier": "every complex matrix A, every POVM with elements summing to one", "why_tests_cant": "All matrices.", "anchors": ["jVMC/operator/povm.py:matrix_to_povm"]}
{"id": "C38", "title": "POVM operators represent the density-matrix dynamics and expectation values", "statement": "With P^a = Tr(rho M^a): the unitary operator maps P to Tr(-i[H,rho] M^a), the dissipative one to Tr((L rho L^dag - {L^dag L, rho}/2) M^a), and observables give sum_a O^a P^a = Tr(rho A).", "quantifier": "every density matrix, Hermitian H / A, arbitrary L, informationally complete POVM", "why_tests_cant": "All matrices and states.", "anchors": ["jVMC/operator/povm.py:matrix_to_povm"]}
{"id": "C39", "title": "POVM operator registry", "statement": "add_unitary/add_dissipator/add_imaginary never overwrite an existing operator: a used name raises ValueError and leaves the registry unchanged; all earlier names keep their matrices.", "quantifier": "every history of add calls", "why_tests_cant": "All histories.", "anchors": ["jVMC/operator/povm.py:POVM.add_unitary", "jVMC/operator/povm.py:POVM.add_dissipator", "jVMC/operator/povm.py:POVM.add_imaginary", "jVMC/operator/povm.py:POVM._check_name_availabilty"]}
{"id": "C40", "title": "POVMOperator compilation preserves the operator", "statement": "The action of the compiled POVMOperator equals the sum over all added terms of strength times the term's local operator acting on its sites, each term exactly once.", "quantifier": "every list of terms on any sets of distinct sites, any strengths, every configuration", "why_tests_cant": "Merging logic over all term lists.", "anchors": ["jVMC/operator/povm.py:POVMOperator.compile", "jVMC/operator/povm.py:POVMOperator._get_s_primes"]}
{"id": "C41", "title": "SampledObs mean, covariance and variance are the weighted moments", "statement": "SampledObs(O,p).mean() = sum p O, covar(A,B) = sum p conj(A-mean A)(B-mean B), var = its diagonal; for normalised weights covar equals E[conj(A)B]-conj(E[A])E[B], covar(A,A) is Hermitian positive semi-definite; all independent of the distribution over ranks and devices.", "quantifier": "every data set, weights, dimensions, layout", "why_tests_cant": "All data.", "anchors": ["jVMC/stats.py:SampledObs"]}
{"id": "C42", "title": "SampledObs.subset equals the estimator on the renormalised subset", "statement": "obs.subset(start,end,step) has the same mean, centred data and covariances as a SampledObs built from the selected samples with renormalised weights.", "quantifier": "every subset with positive total weight, every data set", "why_tests_cant": "All subsets.", "anchors": ["jVMC/stats.py:SampledObs.subset"]}
{"id": "C43", "title": "covar_data, covar_var and transform are consistent with covar", "statement": "covar_data(B).mean() equals covar(B), covar_data(B).var() equals covar_var(B), and transform(f) has the samples f(O_n), for samples of positive weight; samples of zero weight do not matter.", "quantifier": "every data set and weights, every f", "why_tests_cant": "All data.", "anchors": ["jVMC/stats.py:SampledObs.covar_data", "jVMC/stats.py:SampledObs.covar_var", "jVMC/stats.py:SampledObs.transform"]}
{"id": "C44", "title": "TDVP leaves psi unchanged and cross-validation does not alter the result", "statement": "Calling the TDVP object as right-hand side returns the update and leaves psi.get_parameters() as before; with crossValidation=True the returned update and the stored S, F and spectrum are those obtained without it.", "quantifier": "every state, sampler outcome, configuration of the solver", "why_tests_cant": "All states and data.", "anchors": ["jVMC/util/tdvp.py:TDVP.__call__", "jVMC/util/tdvp.py:TDVP.solve"]}
{"id": "C45", "title": "the TDVP pseudo-inverse loop terminates with a truthful residual", "statement": "TDVP.solve terminates; the reported residual equals ||S x - F||/||F|| of the returned solution; either residual <= pinvTol or the cutoff reached pinvCutoff; the cutoff used is never below 0.8*pinvCutoff; every valid setting of pinvTol and pinvCutoff produces an update.", "quantifier": "every spectrum, force vector, pinvTol, pinvCutoff", "why_tests_cant": "Loop over real data; all spectra.", "anchors": ["jVMC/util/tdvp.py:TDVP.solve"]}
{"id": "C46", "title": "the TDVP error measures the distance between exact and variational evolution", "statement": "get_tdvp_error(update) equals sum_n p_n |sum_k u_k (O_k-mean) + x (E-mean)|^2 / Var(E) for real updates and |x|=1; it is non-negative.", "quantifier": "every data set and update", "why_tests_cant": "All data.", "anchors": ["jVMC/util/tdvp.py:TDVP._get_tdvp_error", "jVMC/util/tdvp.py:TDVP.get_tdvp_equation"]}
{"id": "C47", "title": "MinSR solves the stochastic-reconfiguration equation", "statement": "The MinSR update x satisfies S x = -F with S, F the covariances of the gradients and local energies, and has minimal norm among the solutions of the sample-space equation.", "quantifier": "every gradient data set and local energies", "why_tests_cant": "All data.", "anchors": ["jVMC/util/minsr.py:MinSR.solve", "jVMC/stats.py:SampledObs.tangent_kernel"]}
{"id": "C48", "title": "get_sr_equation returns the SR equation", "statement": "TDVP.get_sr_equation(Eloc, gradients) returns (S, F) of the imaginary-time equation for every input.", "quantifier": "every input", "why_tests_cant": "Every call fails, no test calls it.", "anchors": ["jVMC/util/tdvp.py:TDVP.get_sr_equation"]}
{"id": "C49", "title": "AdaptiveHeun returns an accepted, accurately described step", "statement": "When AdaptiveHeun.step returns (y, dt): y is exactly the result of two Heun steps of size dt/2 from the initial value; the deviation from the single Heun step of size dt is at most the tolerance; dt never exceeds maxStep; the initial array is not modified; every rejected attempt shrinks the step by at least a factor 0.9 and at most 5; the next step size is at most maxStep and at most doubles. A step returns for every right-hand side that is continuous at the initial value (more generally: bounded close to it).", "quantifier": "every right-hand side, initial value, tolerance, norm and history of steps", "why_tests_cant": "All right-hand sides and all histories.", "anchors": ["jVMC/util/stepper.py:AdaptiveHeun.step"]}
{"id": "C50", "title": "Euler and Heun are consistent of order one and two", "statement": "Euler.step returns y + dt f(y,t); Heun.step is exact for dy/dt = a + b t and agrees with the second-order Taylor polynomial for linear autonomous systems; the right-hand side is called with intStep = 0 and the initial value first.", "quantifier": "every right-hand side, initial value, time step", "why_tests_cant": "All right-hand sides.", "anchors": ["jVMC/util/stepper.py:Euler.step", "jVMC/util/stepper.py:Heun.step"]}
{"id": "C51", "title": "ground_state_search terminates and obeys its stopping rule", "statement": "ground_state_search performs at most numSteps updates; it stops earlier only if the last energy variance is <= varianceTol; after n steps the diagonal shift is 0.95^n times the initial one; observables are recorded n+1 times at steps 0..n.", "quantifier": "every sequence of variances and every numSteps, varianceTol", "why_tests_cant": "All sequences.", "anchors": ["jVMC/util/util.py:ground_state_search"]}
{"id": "C52", "title": "OutputManager.write_observables appends and keeps series aligned", "statement": "After any sequence of write_observables calls, every dataset's i-th entry is the value passed at the i-th time, all data written earlier is unchanged.", "quantifier": "every sequence of writes, groups and observable names", "why_tests_cant": "All histories.", "anchors": ["jVMC/util/output_manager.py:OutputManager.write_observables"]}
{"id": "C53", "title": "network checkpoints round-trip", "statement": "get_network_checkpoint() returns the last written (time, weights); with idx=i the i-th; with time=t one whose time is closest to t; also after a crash in the middle of a write the returned weights belong to the returned time.", "quantifier": "every sequence of checkpoint writes, every query, every crash point", "why_tests_cant": "All histories and crash points.", "anchors": ["jVMC/util/output_manager.py:OutputManager.write_network_checkpoint", "jVMC/util/output_manager.py:OutputManager.get_network_checkpoint"]}
{"id": "C54", "title": "set_group selects the group for later writes", "statement": "After set_group(g) all writes go to group g, and only there, for every g including the root group.", "quantifier": "every sequence of set_group and write calls", "why_tests_cant": "All histories.", "anchors": ["jVMC/util/output_manager.py:OutputManager.set_group"]}
{"id": "C55", "title": "timing statistics", "statement": "The total reported for a timer is the sum of the durations between matching start/stop calls plus added timings; the values printed by successive print_timings calls add up to the total.", "quantifier": "every history of timer calls", "why_tests_cant": "All histories.", "anchors": ["jVMC/util/output_manager.py:OutputManager.start_timing", "jVMC/util/output_manager.py:OutputManager.stop_timing", "jVMC/util/output_manager.py:OutputManager.print_timings"]}
{"id": "C56", "title": "symmetry orbits are groups", "statement": "The orbit returned by get_orbit_1D / get_orbit_2D_square contains the identity, consists of signed permutations and is closed under multiplication and inversion, has no duplicates, and equals the group generated by the requested symmetries.", "quantifier": "every linear size L and every choice of symmetries", "why_tests_cant": "All sizes.", "anchors": ["jVMC/util/symmetries.py:get_orbit_1D", "jVMC/util/symmetries.py:get_orbit_2D_square"]}
{"id": "C57", "title": "symmetrised networks are invariant", "statement": "SymNet(net, orbit) with the default averaging gives the same wave-function amplitude for s and for any symmetry image of s (and transforms with the character for non-trivial symmetry factors), for every inner network.", "quantifier": "every network, configuration, size L, symmetry choice and group element", "why_tests_cant": "All networks and configurations.", "anchors": ["jVMC/nets/sym_wrapper.py:SymNet", "jVMC/nets/sym_wrapper.py:avgFun_Coefficients_Exp", "jVMC/nets/sym_wrapper.py:avgFun_Coefficients_Log", "jVMC/nets/sym_wrapper.py:avgFun_Coefficients_Sep"]}
{"id": "C58", "title": "recurrent networks are normalised", "statement": "sum over all configurations of |RNN(s)|^(1/logProbFactor) = 1 for the 1D and 2D recurrent networks, for every cell, parameters, size and local dimension.", "quantifier": "every cell function, output weights, L, inputDim, logProbFactor", "why_tests_cant": "All parameters; sums over exponentially many configurations.", "anchors": ["jVMC/nets/rnn1d_general.py:RNN1DGeneral", "jVMC/nets/rnn2d_general.py:RNN2DGeneral"]}
{"id": "C59", "title": "direct sampling draws from the network's own distribution", "statement": "The probability that RNN.sample produces s equals |RNN(s)|^(1/logProbFactor); with a symmetrised network (separate averaging) and the sampler's random symmetry operation the sample is distributed according to the symmetrised wave function.", "quantifier": "every cell function, parameters, L, inputDim, orbit", "why_tests_cant": "Distribution over all configurations for all parameters.", "anchors": ["jVMC/nets/rnn1d_general.py:RNN1DGeneral.sample", "jVMC/nets/rnn2d_general.py:RNN2DGeneral.sample", "jVMC/sampler.py:MCSampler._randomize_samples"]}
{"id": "C60", "title": "periodic CNNs are translation invariant", "statement": "CNN and CpxCNN with periodic boundary and unit stride give the same output for a configuration and each of its translates. CNN computes the convolutional network that its arguments describe: filters, strides, channels, biases, activation functions and boundary conditions.", "quantifier": "every kernel size, number of layers and channels, parameters, L, shift", "why_tests_cant": "All parameters and shifts.", "anchors": ["jVMC/nets/cnn.py:CNN", "jVMC/nets/cnn.py:CpxCNN"]}
{"id": "C61", "title": "RBM activation and spin-flip symmetry", "statement": "exp(log_cosh(z)) = cosh(z) for every complex z, log_cosh is even; the bias-free CpxRBM assigns equal amplitudes to s and its global spin flip. poly6 and poly5 are the Taylor approximations of log cosh and tanh of order six and five.", "quantifier": "every complex number, every RBM parameters and configuration", "why_tests_cant": "A continuum of inputs.", "anchors": ["jVMC/nets/activation_functions.py:log_cosh", "jVMC/nets/rbm.py:CpxRBM"]}
{"id": "C62", "title": "measured errors are standard errors of the mean", "statement": "util.measure and measure_povm report MC_error = sqrt(variance / number of samples), with mean and variance the weighted sample moments of the local estimators.", "quantifier": "every data set", "why_tests_cant": "All data.", "anchors": ["jVMC/util/util.py:measure", "jVMC/operator/povm.py:measure_povm"]}
{"id": "C63", "title": "parameter vectors of the wrong length are rejected", "statement": "psi.set_parameters(v) and psi.update_parameters(v) with a vector v whose length differs from len(psi.get_parameters()) raise an exception, and whenever they raise the parameters are unchanged.", "quantifier": "every network tree, real or complex, every vector of the wrong length, every prior history", "why_tests_cant": "All tree shapes and all wrong lengths.", "anchors": ["jVMC/vqs.py:NQS._param_unflatten", "jVMC/vqs.py:NQS.set_parameters", "jVMC/vqs.py:NQS.update_parameters"]}
{"id": "C64", "title": "gradients_dict and gradients hold the same numbers", "statement": "psi.gradients_dict(s), read leaf by leaf, holds the entries of psi.gradients(s) at the positions given by psi.grad_dict_to_vec_map().", "quantifier": "every network, parameter tree, parameter values, gradient mode", "why_tests_cant": "All trees and all networks.", "anchors": ["jVMC/vqs.py:NQS.gradients_dict", "jVMC/vqs.py:NQS.grad_dict_to_vec_map", "jVMC/vqs.py:dict_gradient", "jVMC/vqs.py:dict_gradient_real"]}
{"id": "C65", "title": "predefined local operators have their textbook matrices", "statement": "With O_{s,s'} = <s|O|s'> and the basis fixed by Sz (0 is the eigenvalue -1), the operators Sx, Sy, Sz, Sp, Sm and number act as the Pauli matrices, the raising operator (Sx + i Sy)/2, the lowering operator and the occupation number on their site and as identity elsewhere.", "quantifier": "every lattice size, site and configuration", "why_tests_cant": "Expectation values of Hermitian combinations cannot tell an operator from its adjoint; all sizes and sites.", "anchors": ["jVMC/operator/branch_free.py:Sx", "jVMC/operator/branch_free.py:Sy", "jVMC/operator/branch_free.py:Sz", "jVMC/operator/branch_free.py:Sp", "jVMC/operator/branch_free.py:Sm", "jVMC/operator/branch_free.py:number"]}
{"id": "C66", "title": "named product states of a POVM", "statement": "POVM.get_1_particle_distributions / the named initial states return, for each documented name, a probability distribution over the four outcomes whose X, Y, Z expectation values computed with the POVM observables are the Bloch vector of the named state; any other name raises.", "quantifier": "every named state, every orientation (theta, phi) of the POVM", "why_tests_cant": "Continuous family of POVM orientations.", "anchors": ["jVMC/operator/povm.py:get_1_particle_distributions"]}
{"id": "C67", "title": "select, tangent_kernel and linear transforms of SampledObs", "statement": "obs.select(ixs) is the SampledObs of the selected components in the given order; tangent_kernel() is the Gram matrix of the weighted centred observations; transform(linearFun=v) applies v to the components of every single sample, for vector- and for matrix-valued observations.", "quantifier": "every data set, weights, layout, index list and linear map", "why_tests_cant": "All data, shapes and index lists.", "anchors": ["jVMC/stats.py:SampledObs.select", "jVMC/stats.py:SampledObs.tangent_kernel", "jVMC/stats.py:SampledObs.transform"]}
{"id": "C69", "title": "POVM observables and correlators are quantum expectation values", "statement": "For every state of the chain, the average of the site-averaged observable over the POVM outcome distribution is the site average of Tr(rho O_i), and the average of the correlator at distance L is the site average of Tr(rho O_i O_{i-L}), for every L.", "quantifier": "every chain length, density matrix, informationally complete POVM, Hermitian observable, distance", "why_tests_cant": "All states, all sizes, all POVM orientations.", "anchors": ["jVMC/operator/povm.py:POVM.evaluate_observable", "jVMC/operator/povm.py:measure_povm"]}
{"id": "C70", "title": "the TDVP equation is the covariance equation of the samples", "statement": "TDVP.get_tdvp_equation returns F_i = q[-x Cov(O_i, E)] and S_ij = q[Cov(O_i, O_j)] over all samples of all ranks and devices with their weights, q the real part (makeReal='real') or i times the imaginary part ('imag'), the diagonal multiplied by 1+diagonalShift.", "quantifier": "every data set, weights, layout over ranks and devices, prefactor, shift, mode", "why_tests_cant": "All data sets and layouts.", "anchors": ["jVMC/util/tdvp.py:TDVP.get_tdvp_equation"]}
{"id": "C71", "title": "MinSR keeps real parameters real", "statement": "For a network with real parameters the update returned by MinSR is real, as requested by makeReal.", "quantifier": "every data set, every makeReal", "why_tests_cant": "All data sets.", "anchors": ["jVMC/util/minsr.py:MinSR.solve", "jVMC/util/minsr.py:MinSR.__init__"]}
{"id": "C72", "title": "a MinSR call restores the network", "statement": "A call of a MinSR object that returns leaves the parameters of psi as they were before, after any history of calls; the update belongs to the samples drawn with the parameters passed in; energy mean and variance are updated exactly for intStep=0.", "quantifier": "every history, parameters, samples, integration step", "why_tests_cant": "All histories.", "anchors": ["jVMC/util/minsr.py:MinSR.__call__"]}
{"id": "C73", "title": "existing output files and stored arrays are never overwritten", "statement": "OutputManager(fn, append=True) changes no object that is in the file; with append=False nothing of an existing file remains. write_dataset and write_error_data change no object that is in the file, not even if they raise or crash, and if they return then exactly the array passed is stored under the name, which was not in use before.", "quantifier": "all existing files, groups, names and arrays, all crash points", "why_tests_cant": "the files and the crash points are unbounded", "anchors": ["jVMC/util/output_manager.py:OutputManager.__init__", "jVMC/util/output_manager.py:OutputManager.write_dataset", "jVMC/util/output_manager.py:OutputManager.write_error_data"]}
{"id": "C74", "title": "CpxCNNSym is invariant under its symmetries", "statement": "CpxCNNSym(orbit, ...) gives the same output for a configuration and for each of its images under the symmetries the orbit was built from, for all parameters.", "quantifier": "every configuration, lattice size, choice of symmetries, parameters and group element", "why_tests_cant": "All parameters, configurations and group elements.", "anchors": ["jVMC/nets/cnn.py:CpxCNNSym", "jVMC/util/symmetries.py:get_orbit_1D"]}
{"id": "C75", "title": "Markov chains reach every configuration and forget where they started", "statement": "With the shipped update proposers every configuration of the space is reached from every other by updates of positive probability, |psi|^mu is the only stationary distribution of a chain, and the distribution of the samples approaches it from every initial state.", "quantifier": "all wave functions without zeros, system sizes, pairs of configurations, numbers of sweeps and random numbers", "why_tests_cant": "the number of steps, the configurations and the random numbers are unbounded", "anchors": ["jVMC/sampler.py:MCSampler", "jVMC/sampler.py:propose_spin_flip", "jVMC/sampler.py:propose_spin_flip_Z2", "jVMC/sampler.py:propose_spin_flip_zeroMag", "jVMC/sampler.py:propose_POVM_outcome"]}
{"id": "C76", "title": "MCSampler rejects invalid arguments", "statement": "MCSampler(net, ..., updateProposer, mu) raises RuntimeError exactly if the network cannot generate samples and no updateProposer is given, otherwise ValueError exactly if mu is not in [0,2], and accepts the arguments in all other cases.", "quantifier": "all values of mu and kinds of networks", "why_tests_cant": "mu ranges over all real numbers", "anchors": ["jVMC/sampler.py:MCSampler.__init__"]}
{"id": "C77", "title": "measurements are quantum expectation values", "statement": "With exact sampling measure() reports on every rank Re <psi|O|psi>/<psi|psi>, the variance |O psi|^2/|psi|^2 - |<O>|^2 and the error 0; the exact sampler returns every configuration with its Born probability.", "quantifier": "every wave function, operator, lattice size, split over ranks and devices, batch size", "why_tests_cant": "All wave functions, sizes and layouts.", "anchors": ["jVMC/sampler.py:ExactSampler.sample", "jVMC/operator/base.py:Operator.get_O_loc", "jVMC/util/util.py:measure", "jVMC/operator/branch_free.py:BranchFreeOperator"]}
{"id": "C78", "title": "zero variance and stationarity of eigenstates", "statement": "If the network represents an eigenstate of the Hamiltonian, the local energy is the eigenvalue on every sample, and the TDVP update is zero; conversely a reported variance of zero with exact sampling means that the network represents an eigenstate.", "quantifier": "every wave function, operator, sample, batch size, regularisation", "why_tests_cant": "All wave functions, operators and samples.", "anchors": ["jVMC/operator/base.py:Operator.get_O_loc", "jVMC/util/util.py:measure", "jVMC/util/tdvp.py:TDVP.solve"]}
{"id": "C79", "title": "imaginary-time TDVP steps lower the energy", "statement": "With exact sampling, rhsPrefactor > 0 and makeReal='real', a sufficiently short step along the update returned by TDVP lowers <psi|H|psi>/<psi|psi> unless the update is zero.", "quantifier": "every differentiable wave function with real parameters, Hermitian Hamiltonian, regularisation, layout over ranks and devices", "why_tests_cant": "All wave functions, Hamiltonians and regularisation parameters.", "anchors": ["jVMC/util/tdvp.py:TDVP", "jVMC/util/util.py:ground_state_search"]}
{"id": "C80", "title": "real-time TDVP conserves the energy", "statement": "With exact sampling, an imaginary rhsPrefactor and makeReal='imag', the derivative of <psi|H|psi>/<psi|psi> along the update returned by TDVP is zero.", "quantifier": "every differentiable wave function with real parameters, Hermitian Hamiltonian, regularisation, layout over ranks and devices", "why_tests_cant": "All wave functions, Hamiltonians and regularisation parameters.", "anchors": ["jVMC/util/tdvp.py:TDVP"]}
{"id": "C68", "title": "mean_and_grad returns an expectation value and its gradient", "statement": "SampledObs(configs, weights, estimator).mean_and_grad(psi, params) returns the expectation value of the estimator O(params, s) and its gradient with respect to the parameter vector, including the dependence of the distribution on the parameters; for a local estimator this is the gradient of <O>. mean(params) is the weighted mean of the estimator at params.", "quantifier": "every differentiable estimator and network, real and complex parameters, samples with the Born weights of psi at params, any number of ranks and devices", "why_tests_cant": "All networks, estimators and layouts; derivatives are limits.", "anchors": ["jVMC/stats.py:SampledObs.mean_and_grad", "jVMC/stats.py:SampledObs.mean", "jVMC/stats.py:flat_grad"]}
{"id": "C81", "title": "init_net builds the symmetric wave function that is described", "statement": "util.init_net(descr, dims) returns a wave function of the given kind that has every symmetry mentioned in the description, on chains and square lattices, with the given symmetry factors: a sum of the images weighted with the character, or, for networks that generate samples, the wave function whose Born probabilities are the means of those of the images. The description can be used again, and can contain two networks.", "quantifier": "every description, network, size and configuration", "why_tests_cant": "Descriptions, sizes and configurations are unbounded.", "anchors": ["jVMC/util/util.py:init_net", "jVMC/nets/sym_wrapper.py:SymNet"]}
{"id": "C82", "title": "amplitude and phase networks", "statement": "NQS((net1, net2)) represents exp(net1(s) + i net2(s)), so that real networks give the modulus and the phase; the network passed to the samplers returns the real part of the logarithm of the wave function; the wave function generates samples exactly if net1 does.", "quantifier": "every pair of networks, with and without symmetrisation, every configuration", "why_tests_cant": "All networks and configurations.", "anchors": ["jVMC/vqs.py:NQS", "jVMC/vqs.py:NQS.get_sampler_net", "jVMC/nets/two_nets_wrapper.py:TwoNets"]}
{"id": "C83", "title": "FFN is the feed-forward network that its arguments describe", "statement": "FFN(layers, bias, actFun) applied to a configuration is the output of the feed-forward network with these hidden layers on the spins 2s-1, where missing activation functions are filled up with the last one; without biases, with odd hidden and even output activation functions it is invariant under spin flips.", "quantifier": "every list of layers, activation functions, parameters and configuration", "why_tests_cant": "Numbers and sizes of layers, parameters and configurations are unbounded.", "anchors": ["jVMC/nets/ffn.py:FFN"]}
{"id": "C84", "title": "restricted Boltzmann machines connect all sites of the lattice", "statement": "RBM and CpxRBM applied to a configuration of a lattice with several axes are restricted Boltzmann machines of all its sites: every hidden unit is connected to every site.", "quantifier": "every lattice, set of parameters and configuration", "why_tests_cant": "All sizes, parameters and configurations.", "anchors": ["jVMC/nets/rbm.py:RBM", "jVMC/nets/rbm.py:CpxRBM"]}
{"id": "C85", "title": "every sample call uses the current settings of the sampler", "statement": "A sequence of calls of MCSampler.sample, between which the user changes the attributes of the sampler (sweepSteps, thermalizationSweeps, updateProposer, updateProposerArg, mu, net), gives the same samples as if nothing had been compiled before: each call uses the attributes it finds, whatever has been sampled earlier.", "quantifier": "all sequences of calls with all settings, numbers of samples and random keys", "why_tests_cant": "which compiled function is used depends on the whole history of calls; tests set up a new sampler for every setting", "anchors": ["jVMC/sampler.py:MCSampler._get_samples_mcmc", "jVMC/sampler.py:MCSampler._sweep"]}
{"id": "C86", "title": "networks can be created with every supported release of flax", "statement": "With every release of flax that setup.py admits (flax>=0.7.0) the initialisers that the networks pass to their layers create the parameters.", "quantifier": "all release numbers from 0.7 on, all shapes and data types", "why_tests_cant": "tests run with one installed release; the releases are unbounded", "anchors": ["jVMC/nets/initializers.py:init_fn_args", "setup.py"]}
{"id": "C87", "title": "samplers respect logarithmic=False", "statement": "For a wave function created with NQS(net, logarithmic=False), whose network returns psi(s) instead of log psi(s), the samplers sample from |psi(s)|^2.", "quantifier": "every network, lattice, local dimension, number of ranks and devices", "why_tests_cant": "the claim is about all amplitudes; no test uses logarithmic=False", "anchors": ["jVMC/vqs.py:NQS.__init__", "jVMC/vqs.py:NQS.__call__", "jVMC/sampler.py:ExactSampler.sample", "jVMC/sampler.py:MCSampler._sweep"]}
{"id": "C88", "title": "TDVP updates are the best velocities", "statement": "With makeReal='real' the update returned by TDVP.solve never leaves the evolution further from the exact one, dpsi/dt = -x H psi up to norm and phase, than not moving at all, so the reported TDVP error is at most one. Without diagonal shift no other parameter velocities come closer, up to a remainder that is bounded by the damping of the smallest eigenvalue; if the ansatz can follow the evolution exactly, the update is the exact velocity up to the same relative remainder, in both modes.", "quantifier": "every network, Hamiltonian, prefactor, sample set with non-negative weights, regularisation, and every competing velocity", "why_tests_cant": "A minimum over all velocities in every network and every state cannot be tested pointwise.", "anchors": ["jVMC/util/tdvp.py:TDVP.solve", "jVMC/util/tdvp.py:TDVP._get_tdvp_error"]}
{"id": "C89", "title": "makeReal does not matter for holomorphic networks", "statement": "For a network that is holomorphic in complex parameters, sampled exactly and without diagonal shift, TDVP returns the same update, residual and cutoff for makeReal='imag' as for makeReal='real' (and fails for one iff it fails for the other). Hence imaginary-time updates lower the energy also with 'imag', and real-time updates conserve it also with 'real'. The flattened gradients the state object computes for such networks are of the required form.", "quantifier": "all numbers of parameters and leaf shapes, all holomorphic gradients, all sets of weighted samples, all Hamiltonians, prefactors, cutoffs and tolerances, all correct eigensolvers", "why_tests_cant": "the two modes diagonalise different matrices with different spectra; agreement on examples does not show that the cutoff loop takes the same number of rounds and the same damping in general", "anchors": ["jVMC/util/tdvp.py:TDVP.solve", "jVMC/util/tdvp.py:TDVP.get_tdvp_equation", "jVMC/util/tdvp.py:realFun", "jVMC/util/tdvp.py:imagFun", "jVMC/vqs.py:flat_gradient_holo"]}
{"id": "C90", "title": "recurrent networks compute the documented recursions", "statement": "RNN1DGeneral and RNN2DGeneral with cell 'RNN', 'LSTM' or 'GRU' return the sum over all sites of the conditional log amplitudes that the output layer computes from the hidden states of a deep recurrent network of that kind: each layer combines the hidden state of the layer below with that of the same layer at the preceding site (in 2D: preceding on the zigzag path, and above). The hidden state at a site depends only on the sites visited before. Hidden states of gated cells stay between -1 and 1.", "quantifier": "all lattice sizes, depths, hidden sizes, local dimensions, weights and configurations", "why_tests_cant": "a recursion over sites, layers and rows is fixed by examples only for the sizes they use", "anchors": ["jVMC/nets/rnn1d_general.py:RNN1DGeneral", "jVMC/nets/rnn1d_general.py:RNNCellStack", "jVMC/nets/rnn1d_general.py:RNNCell", "jVMC/nets/rnn1d_general.py:LSTMCell", "jVMC/nets/rnn1d_general.py:GRUCell", "jVMC/nets/rnn2d_general.py:RNN2DGeneral", "jVMC/nets/rnn2d_general.py:RNNCellStack"]}
{"id": "C91", "title": "invalid cell arguments are reported", "statement": "Recurrent networks accept the cell names 'RNN', 'LSTM' and 'GRU'; other names, and gated cells with complex parameters, raise ValueError.", "quantifier": "all strings, dimensions, depths, parameter types", "why_tests_cant": "all strings", "anchors": ["jVMC/nets/rnn1d_general.py:RNN1DGeneral.setup", "jVMC/nets/rnn2d_general.py:RNN2DGeneral.setup"]}
{"id": "C92", "title": "estimates from directly drawn samples", "statement": "For a wave function that generates samples, measuring an operator with n samples drawn on any number of MPI ranks and devices, with any batch size, gives the quantum expectation value on average; the mean square deviation is a variance divided by n (at most the variance of the operator divided by n), so that deviations of at least eps have probability at most variance/(n eps^2). The square of the reported error is the variance of the operator divided by n on average, up to the factor 1-1/n.", "quantifier": "every wave function that samples from its Born distribution (proved for recurrent networks on chains of every length and local dimension), every operator, number of ranks, devices and samples, batch size", "why_tests_cant": "statements about the distribution of results over all random samples", "anchors": ["jVMC/sampler.py:MCSampler._get_samples_gen", "jVMC/util/util.py:measure", "jVMC/vqs.py:NQS.sample", "jVMC/nets/rnn1d_general.py:RNN1DGeneral.sample"]}
{"id": "C93", "title": "estimates from Markov chain samples", "statement": "For a wave function without zeros that is sampled with Markov chains, the weighted mean that measure reports for an operator approaches the quantum expectation value as the number of samples N grows, for every initial state of the chains, every number of thermalisation sweeps, ranks, devices and chains, every mu and batch size: the mean square deviation is at most A/N and deviations of at least eps have probability at most A/(N eps^2), with A independent of N, of the initial states and of the thermalisation.", "quantifier": "every wave function, operator, lattice size, number of samples, ranks, devices, chains, thermalisation sweeps, sweep steps, initial states, mu", "why_tests_cant": "a limit statement about the distribution over all random trajectories", "anchors": ["jVMC/sampler.py:MCSampler.sample", "jVMC/sampler.py:MCSampler._get_samples_mcmc", "jVMC/sampler.py:MCSampler._get_samples", "jVMC/sampler.py:MCSampler._sweep", "jVMC/util/util.py:measure"]}
{"id": "C94", "title": "A POVM operator generates the master equation it describes", "statement": "Build a POVMOperator by adding dictionaries for the predefined terms (fields X, Y, Z, couplings XX, YY, ZZ, losses decayup, decaydown, dephasing) or for operators on any number of spins registered with add_unitary, add_dissipator and add_imaginary. Then, for every number of spins and every state rho, the matrix elements it returns map the distribution of the POVM outcomes in rho to the time derivative of this distribution under drho/dt = -i[H, rho] + sum gamma (L rho L^+ - {L^+ L, rho}/2) (and -{A, rho} for imaginary time terms) with exactly the added terms, strengths and sites. Total probability is conserved, and for a network that represents the distribution get_O_loc returns the logarithmic time derivative at every sample.", "quantifier": "every lattice size, POVM orientation, state, outcome, list of terms, history of add calls that gives no dictionary to two operators, order in which sets are enumerated, batch size", "why_tests_cant": "the matrices act on 4^N outcomes; agreement with the many-body master equation must hold for all states and all combinations of terms", "anchors": ["jVMC/operator/povm.py:POVMOperator", "jVMC/operator/povm.py:POVM", "jVMC/operator/povm.py:matrix_to_povm", "jVMC/operator/povm.py:get_unitaries", "jVMC/operator/povm.py:get_dissipators", "jVMC/operator/base.py:Operator.get_O_loc"]}
{"id": "C95", "title": "Normalisation and global phase of the wave function do not matter", "statement": "Replace the network by one whose output is log psi(s) + c, where the complex number c does not depend on the configuration but may depend on the parameters. Then nothing observable changes: the exact sampler returns the same configurations and probabilities (whatever normalisation it stored in earlier calls), the Markov chain sampler takes the same trajectory for every sequence of random numbers and returns the same configurations and weights, get_O_loc and measure return the same numbers, the gradients change by a vector that is the same for all configurations, and TDVP and MinSR calls return the same update, set the same attributes and leave the same parameters.", "quantifier": "every network, constant, parameter dependence of the constant with partial derivatives, random number generator, history of sampling calls, operator, batch size, world size, solver option", "why_tests_cant": "the cancellations occur in caches, means and ratios in different modules and must hold for all networks, constants and histories", "anchors": ["jVMC/sampler.py:ExactSampler.sample", "jVMC/sampler.py:MCSampler._sweep", "jVMC/sampler.py:MCSampler._mc_init", "jVMC/operator/base.py:Operator.get_O_loc", "jVMC/vqs.py:NQS.gradients", "jVMC/stats.py:SampledObs", "jVMC/util/tdvp.py:TDVP.__call__", "jVMC/util/minsr.py:MinSR.__call__"]}
{"id": "C96", "title": "Integrated trajectories converge to the solution of the differential equation", "statement": "Repeat the step method of a stepper for dy/dt = F(y,t), where each evaluation of the right-hand side may deviate from F by up to eps, e.g. because it is sampled. With Euler the error after time tau is at most exp(L tau) (initial error + tau (eps + K dt)); with Heun, and with AdaptiveHeun for any time steps it chooses, it is of second order in dt respectively maxStep plus a multiple of eps. With exact evaluations results of Euler and Heun tend to the solution as dt tends to 0. Steps of AdaptiveHeun return and reach every final time for bounded right-hand sides. AdaptiveHeun's integration error is below the tolerance.", "quantifier": "every normed space, right-hand side that is Lipschitz continuous near the solution, solution with Lipschitz continuous velocity (second order: acceleration), number of steps, initial error, deviation and internal state of the evaluations, norm, tolerance", "why_tests_cant": "bounds must hold for all equations and numbers of steps; limits cannot be tested", "anchors": ["jVMC/util/stepper.py:Euler.step", "jVMC/util/stepper.py:Heun.step", "jVMC/util/stepper.py:AdaptiveHeun.step", "examples/ex2_unitary_time_evolution.py"]}
{"id": "C97", "title": "Reported TDVP errors bound the distance from the exact dynamics", "statement": "Follow the velocities that TDVP.__call__ returns with rhsPrefactor=1j and exactly weighted samples. Let e(t) be the square root of metadata['tdvp_error'] times the energy variance ElocVar0. The distance sqrt(1 - fidelity) between the variational state at time T and the solution of the Schroedinger equation, also for a Hamiltonian that depends on time, is at most the initial distance plus the integral of e(t) from 0 to T, and measured expectation values of an observable A deviate from the exact ones by at most 2 ||A|| times that. If the reported errors vanish, the state is exact up to norm and phase. This holds for every regularisation, also with cross validation and with makeReal='imag'.", "quantifier": "every finite set of configurations, Hermitian Hamiltonian constant or depending on time, differentiable network, solver option, history of the solver object, rank, trajectory, final time, observable", "why_tests_cant": "the exact solution is unknown in practice; the bound must hold for all networks, Hamiltonians and times", "anchors": ["jVMC/util/tdvp.py:TDVP.__call__", "jVMC/util/tdvp.py:TDVP._get_tdvp_error", "jVMC/util/tdvp.py:TDVP.get_tdvp_equation", "jVMC/util/util.py:measure"]}
{"id": "C98", "title": "Reported energies and variances locate the energy levels", "statement": "With exactly weighted samples (ExactSampler) get_energy_mean and get_energy_variance are, after every call of the TDVP object with intStep = 0 (also with NaN update), the energy and the energy variance of the variational state; the energy is never below the ground state energy, some energy level lies within one standard deviation of it, and the squared distance of the state from a nondegenerate ground state is at most the excess energy divided by the gap. When ground_state_search stops early, the state has a variance below the tolerance, so that some level lies within its root of the reported energy.", "quantifier": "every finite set of configurations, Hermitian Hamiltonian, differentiable network, solver option, history of psi and of the solver object, rank, tolerance, step size and number of steps", "why_tests_cant": "the spectrum is unknown in practice; the bounds must hold for all Hamiltonians, networks and histories", "anchors": ["jVMC/util/util.py:ground_state_search", "jVMC/util/tdvp.py:TDVP.__call__", "jVMC/util/tdvp.py:TDVP.get_energy_mean", "jVMC/util/tdvp.py:TDVP.get_energy_variance"]}
{"id": "C99", "title": "Interrupted simulations can be resumed from their checkpoints", "statement": "A time-evolution script makes steps, sets the parameters, records observables and writes a network checkpoint at the end of every pass. (1) Whenever the process is killed, also in the middle of a write, the file that is left can be opened again with append=True: all complete rows are kept, and later calls append exactly their rows. (2) If the script is started again with new objects for the same network, at the last checkpoint, then with deterministic (exact) sampling it reaches the same times and the same parameters as without the interruption, and the output has the same content.", "quantifier": "every history of natural write calls, every crash point (between any two file operations), every network, TDVP options, Euler or Heun step size, recorded observables, numbers of passes before and after the interruption, and every state of the new psi, sampler and TDVP object", "why_tests_cant": "the crash points and the hidden state (sampler, stored attributes of the TDVP object, psi) cannot be enumerated; a test compares single runs", "anchors": ["jVMC/util/output_manager.py:OutputManager.write_network_checkpoint", "jVMC/util/output_manager.py:OutputManager.get_network_checkpoint", "jVMC/util/output_manager.py:OutputManager.set_group", "jVMC/util/tdvp.py:TDVP.__call__", "jVMC/util/stepper.py:Euler.step", "jVMC/util/stepper.py:Heun.step", "jVMC/vqs.py:NQS.set_parameters", "examples/ex2_unitary_time_evolution.py"]}
{"id": "C100", "title": "All observables of a dictionary are measured on one sample, independently of each other", "statement": "measure(observables, psi, sampler) draws one sample and reports, under every name and in the order given, one mean, variance and error per operator. The numbers of an operator are those that measuring this operator alone on that sample reports, with a newly built operator: they do not depend on the other observables, on names, order and grouping, on how often and with how many arguments the operator was evaluated before, nor on when its terms were added; the arguments in a tuple (operator, *args) reach this operator only. The mean is the estimate of the expectation value from the sample. Therefore linear relations between operators (the energy is the sum of its terms) hold exactly between the reported means, for every sample.", "quantifier": "every dictionary of operators, lists of operators and tuples with arguments, every sampler and sample, every history of adding terms and of measurements that did not raise", "why_tests_cant": "a test measures a few observables; the dictionary, the history of the operator objects and the sample are arbitrary", "anchors": ["jVMC/util/util.py:measure", "jVMC/util/util.py:get_iterable", "jVMC/operator/base.py:Operator.get_s_primes", "jVMC/operator/base.py:Operator.get_O_loc", "jVMC/operator/branch_free.py:BranchFreeOperator.add"]}
{"id": "C101", "title": "TDVP for distributions of outcomes follows the master equation", "statement": "For a real network that stands for the distribution P = exp(log P)/sum (logProbFactor=1), exactly weighted samples and rhsPrefactor=-1, the distance that TDVP minimises and reports is the Fisher-Rao distance between the velocity of P and the right-hand side A P of the rate equation: the update is the best velocity up to the regularisation; a network that can follow the equation does so. metadata['tdvp_error'] times ElocVar0 is the squared distance for the returned velocities, for every option. It bounds the error of the velocity of every average by the standard deviation of the observable times its root; if it stays below eps^2, averages of observables bounded by B deviate from those of the exact solution by at most B eps (exp(K T) - 1)/K at time T, where K bounds the column sums of |A|. With a POVMOperator the rate equation is the master equation of the added terms: it conserves the total probability, the distributions of outcomes of its solutions solve it, and averages over outcomes are close to those in the exact density matrix.", "quantifier": "every finite set of outcomes, rate matrix, differentiable real network, solver option, history of psi and of the solver object, rank, trajectory, final time, observable; for POVMs every number of sites, list of terms, angle of the SIC-POVM and Hermitian solution of the master equation", "why_tests_cant": "the exact solution is unknown in practice; the bound must hold for all networks, master equations and times", "anchors": ["jVMC/util/tdvp.py:TDVP.__call__", "jVMC/util/tdvp.py:TDVP._get_tdvp_error", "jVMC/operator/povm.py:POVMOperator", "jVMC/sampler.py:ExactSampler.sample", "examples/ex5_dissipative_Lindblad.py"]}
{"id": "C102", "title": "MPI ranks neither hang nor race", "statement": "Ranks run at their own speed and meet only in MPI calls. For all statistics (global_sum, global_mean, global_variance, global_covariance, gather, bcast_unknown_size), the normalisation of ExactSampler and MCSampler, all SampledObs methods, measure, measure_povm, evaluation of time-dependent prefactors, calls of TDVP and MinSR, time steps of Euler, Heun and AdaptiveHeun, and get_network_checkpoint: no relative timing of the ranks deadlocks; all ranks return, after a bounded number of turns; what each rank returns does not depend on the timing and is what the function returns for the data of all ranks together. In particular TDVP and MinSR return the same update on all ranks, and AdaptiveHeun accepts or rejects a step on all ranks or on none. An exception on one rank does not leave other ranks waiting forever.", "quantifier": "every number of ranks, schedule (interleaving) of the ranks, distribution of samples over devices and ranks, solver option, history of the objects", "why_tests_cant": "tests run on one rank or with a few timings; deadlocks and races depend on the interleaving", "anchors": ["jVMC/mpi_wrapper.py", "jVMC/stats.py:SampledObs", "jVMC/sampler.py", "jVMC/util/tdvp.py:TDVP.__call__", "jVMC/util/minsr.py:MinSR.__call__", "jVMC/util/stepper.py", "jVMC/util/util.py:measure", "jVMC/util/output_manager.py:OutputManager.get_network_checkpoint", "jVMC/operator/branch_free.py"]}
{"id": "C103", "title": "Results do not depend on how samples are distributed over ranks and devices", "statement": "If two runs with different numbers of MPI ranks and devices hold the same samples with the same weights, in any order, then measure reports the same means (and, with the same weights, the same variances and errors), and calls of TDVP and MinSR return the same update on all ranks of both runs, store the same attributes and report the same metadata. Entries without weight, with which the exact sampler pads its arrays, do not matter. The weights themselves do not depend on the layout: MCSampler gives the same configurations the same weights, and ExactSampler returns the same weighted configurations.", "quantifier": "every pair of layouts (ranks, devices, samples per device, order), samples, weights, operator, batch size, solver option, history of psi and of the solver object, rank", "why_tests_cant": "layouts and their combinations with samples cannot be enumerated; tests run on one rank", "anchors": ["jVMC/util/tdvp.py:TDVP.__call__", "jVMC/util/minsr.py:MinSR.__call__", "jVMC/util/util.py:measure", "jVMC/stats.py:SampledObs", "jVMC/sampler.py:MCSampler.sample", "jVMC/sampler.py:ExactSampler.sample", "jVMC/mpi_wrapper.py"]}
{"id": "C104", "title": "TDVP steps from finitely many samples are right up to the sampling error", "statement": "If the samples give every configuration its probability |psi|^2/<psi|psi> up to a relative error eps, then, whatever the network, the Hamiltonian and the regularisation: (1) the update that TDVP computes from them is the best velocity up to the factor (1+eps)/(1-eps) (and the regularisation): the true state moves at least as close to the exact evolution as with any other velocities; (2) in imaginary time the true energy changes at most at the rate -(1-eps) l^2/x + 2 eps l sigma (l: speed of the state, sigma: energy spread, x: prefactor), in real time (makeReal='imag') at most at the rate 2 eps l sigma; (3) the reported ElocMean, ElocVar and TDVP error are right up to eps, and integrating the reported errors bounds the distance from the exact solution of the Schroedinger equation. Directly drawn samples and Markov chains have relative error eps except with a probability of at most const/(N eps^2) for N samples.", "quantifier": "every number of parameters and configurations, network, Hamiltonian, samples and weights with the stated error, TDVP option, layout, history of the object; for the probabilities every number of samples, ranks, devices, chains, initial states, proposer as in C93", "why_tests_cant": "the claim is about all states, operators and random outcomes; a test sees single random runs and cannot compare with the exact variational dynamics", "anchors": ["jVMC/util/tdvp.py:TDVP.solve", "jVMC/util/tdvp.py:TDVP.__call__", "jVMC/util/tdvp.py:TDVP.get_tdvp_equation", "jVMC/util/tdvp.py:TDVP._get_tdvp_error", "jVMC/sampler.py:MCSampler.sample", "jVMC/stats.py:SampledObs"]}
{"id": "C105", "title": "All MPI ranks go through a whole simulation in agreement", "statement": "If all ranks create the network with the same seed and configurations of the same shape, then ground_state_search with a TDVP object, and the time-evolution loop of the examples with Euler, Heun or AdaptiveHeun and any norm computed from what the TDVP object stores (S_dot), run to the end on all ranks whatever the timing of the ranks and however different their samples and random numbers are: no rank waits for another one for ever, all make the same number of steps with the same step sizes, leave the loop together, and end with the same parameters, times, variances, diagonal shifts and recorded observables. These are the ones that a single process would compute from all samples.", "quantifier": "every number of ranks, interleaving, network and seed, number of parameters, operator, samples and random numbers on each rank, solver option, number of steps or tolerance, stepper, norm, observables, with ExactSampler or MCSampler", "why_tests_cant": "interleavings, numbers of ranks and iterations are unbounded; tests run on one rank for a few steps", "anchors": ["jVMC/util/util.py:ground_state_search", "jVMC/util/util.py:measure", "examples/ex2_unitary_time_evolution.py", "examples/ex5_dissipative_Lindblad.py", "jVMC/util/stepper.py", "jVMC/util/tdvp.py:TDVP.__call__", "jVMC/vqs.py:NQS", "jVMC/mpi_wrapper.py"]}
{"id": "C106", "title": "The spin proposers treat all sites alike and reflect at the announced rate", "statement": "propose_spin_flip flips exactly one spin, each with probability 1/n. propose_spin_flip_Z2 does the same and then reflects the whole configuration, on average in one of thirty updates as its comment says. propose_spin_flip_zeroMag exchanges an up spin and a down spin of a balanced configuration, each pair with the same probability, and then reflects the configuration at the same rate. Nothing else is ever proposed.", "quantifier": "every configuration of every size (in the zero-magnetisation case every balanced configuration), every site or pair of sites", "why_tests_cant": "a test would need the frequencies of all proposals for all sizes and configurations; the probabilities are not observable in single runs", "anchors": ["jVMC/sampler.py:propose_spin_flip", "jVMC/sampler.py:propose_spin_flip_Z2", "jVMC/sampler.py:propose_spin_flip_zeroMag"]}
{"id": "C107", "title": "The errors reported during a run bound the distance of the final state from the exact one", "statement": "Integrate the real-time TDVP equation (rhsPrefactor=1j) in steps. With Euler, the distance of the final variational state from the exact solution of the Schrodinger equation (also with a Hamiltonian that depends on time) is at most the sum over the steps of dt*sqrt(tdvp_error*ElocVar0), with the numbers reported by the TDVP object in each step, up to a discretisation error of first order in dt with an explicit constant; with samples of relative error eps the reported numbers are divided by 1-eps. With Heun and AdaptiveHeun the distance is at most what the TDVP errors along the exactly integrated TDVP trajectory amount to, up to a discretisation error of second order in the time step (or in the maximal one). Measured expectation values deviate from the exact ones by at most twice the norm of the observable times this distance.", "quantifier": "every network that is smooth for the parameters that occur (bounded derivatives of the log-amplitudes that change at bounded rates), Hermitian Hamiltonian that changes at a bounded rate, initial state, number and size of steps, regularisation, observable", "why_tests_cant": "the exact solution and the distance from it are not available in general; the bound concerns whole runs of any length and every network", "anchors": ["jVMC/util/tdvp.py:TDVP.__call__", "jVMC/util/stepper.py:Euler.step", "jVMC/util/stepper.py:Heun.step", "jVMC/util/stepper.py:AdaptiveHeun.step", "jVMC/util/util.py:measure", "examples/ex2_unitary_time_evolution.py"]}
{"id": "C108", "title": "ground_state_search lowers the energy by what it reports, and it stops", "statement": "In each step of ground_state_search the energy of the variational state falls by at least stepSize*(1-tdvp_error)*ElocVar0, with the numbers that the TDVP object reports in this step, up to a correction of second order in stepSize with an explicit constant (with samples of relative error eps: by stepSize*(1/(1+eps)-tdvp_error/(1-eps))*ElocVar0); it also falls by at least stepSize times the squared speed of the state. Summed over the steps this bounds the energy of the state that the search leaves behind. Hence, if the reported errors stay below some number smaller than one and the step size is small enough for the tolerance, the number of steps after which the search has stopped is bounded by the energy that can be gained above the ground state, for every numSteps.", "quantifier": "every network that is smooth for the parameters that occur, Hermitian Hamiltonian, diagonal shift, regularisation, step size, tolerance, number of steps, history of the network object, sample set within the given error", "why_tests_cant": "the energies and the bound concern whole runs of any length; tests can only run searches for single models", "anchors": ["jVMC/util/util.py:ground_state_search", "jVMC/util/tdvp.py:TDVP.__call__", "jVMC/util/stepper.py:Euler.step", "examples/ex0_ground_state_search.py"]}
{"id": "C109", "title": "ground_state_search converges to the ground state", "statement": "Let the Hamiltonian have a non-degenerate ground state of energy e0 below the first excited level e1, let the energy of the initial state be at most e1-g, and let every tdvp_error that the TDVP object reports be at most delta<1 (with samples of relative error eps: c=(1-eps)/(1+eps)-delta>0). For small enough steps the energy after k steps of ground_state_search exceeds e0 by at most (1-stepSize*c*g)^k times the initial excess plus a term proportional to stepSize with an explicit constant, and the squared distance of the state from the ground state is at most this bound divided by e1-e0.", "quantifier": "every network that is smooth for the parameters that occur, Hermitian Hamiltonian with a gap, diagonal shift, regularisation, small step size, number of steps, history of the network object, sample set within the given error", "why_tests_cant": "the bound holds after every number of steps of runs of any length; tests can only observe the energies of single runs", "anchors": ["jVMC/util/util.py:ground_state_search", "jVMC/util/tdvp.py:TDVP.__call__", "jVMC/util/stepper.py:Euler.step", "examples/ex0_ground_state_search.py"]}
{"id": "C110", "title": "ground_state_search with MinSR lowers the energy and converges", "statement": "A ground_state_search with a MinSR object works for every network: each step changes every parameter by stepSize times the entry of the update that the object returns for it (complex parameters: by both parts), the parameters stay what they are (real ones real), the search stops after the first energy variance that is not above the tolerance, each step lowers the energy by twice the squared speed of the state up to second order in the step size and the sampling error, no other velocities of the parameters would follow imaginary time evolution better unless the cutoff removes directions, and under the conditions of C109 (with the error of the network in following imaginary time evolution in place of the reported tdvp_error) energy and state converge to the ground state exponentially, at twice the rate.", "quantifier": "every network, real or complex, holomorphic or not, Hermitian Hamiltonian, cutoff, step size, tolerance, number of steps, history of the network object, sample set within the given error", "why_tests_cant": "the steps and bounds must hold for runs of any length and every network; tests can only observe single runs", "anchors": ["jVMC/util/util.py:ground_state_search", "jVMC/util/minsr.py:MinSR.__call__", "jVMC/util/minsr.py:MinSR.solve", "jVMC/vqs.py:NQS.set_parameters", "jVMC/util/stepper.py:Euler.step"]}
{"id": "C111", "title": "Measurements respect the symmetries the network was symmetrised with", "statement": "A network symmetrised over a symmetry group represents a symmetric state, and measurements show it. For every group element (a translation, reflection, rotation, spin flip or any product of them) and every sum of products of spin operators: with the exact sampler, measure returns the same mean for the operator and for the operator whose sites are relabelled by that group element (with spin up and down exchanged if the element flips spins), on every rank; on one device per rank the variances agree, too. In particular, with translations the local observables do not depend on the site, and with spin flips every product with an odd number of Sy and Sz factors, for instance the magnetisation of any site, is measured as exactly zero. This holds with any one-dimensional representation of the group and with every averaging function.", "quantifier": "every lattice size, choice of symmetries, one-dimensional representation, inner network without zero amplitudes, group element, list of operator strings without fermionic operators, number of ranks and devices with an even split of the basis", "why_tests_cant": "the equality must hold for all networks and operators; tests compare a few numbers up to rounding", "anchors": ["jVMC/nets/sym_wrapper.py:SymNet.__call__", "jVMC/util/symmetries.py:get_orbit_1D", "jVMC/util/symmetries.py:get_orbit_2D_square", "jVMC/util/util.py:measure", "jVMC/operator/branch_free.py:BranchFreeOperator", "jVMC/sampler.py:ExactSampler.sample"]}
{"id": "C112", "title": "Time evolution conserves the energy", "statement": "A real-time evolution (imaginary rhsPrefactor, makeReal='imag') conserves the energy. With exact samples and a constant Hamiltonian the energy is exactly constant along the solutions of the TDVP equation, whatever the network, the regularisation and the distance of the variational state from the exact one. In a run with Euler, the energies after any two numbers of steps, and the energies that the calls report, differ by at most the elapsed time times the sum of the rate at which the Hamiltonian changes, a term proportional to the sampling error and a term proportional to the time step; with Heun and AdaptiveHeun the change is of second order in the time step.", "quantifier": "every network with bounded and Lipschitz continuous derivatives, Hermitian Hamiltonian (slowly time dependent for Euler), imaginary prefactor, regularisation, cross validation, earlier calls, time step, number of steps, sample sets within the given relative error", "why_tests_cant": "the bound must hold after any number of steps of every run; tests can only observe the energies of single short runs, and rounding or sampling noise hides a small systematic drift", "anchors": ["jVMC/util/tdvp.py:TDVP.__call__", "jVMC/util/tdvp.py:TDVP.solve", "jVMC/util/stepper.py:Euler.step", "jVMC/util/stepper.py:AdaptiveHeun.step", "examples/ex2_unitary_time_evolution.py"]}
{"id": "C113", "title": "Initial complex Boltzmann machines are finite and nearly uniform", "statement": "Whatever the seed and the number m of hidden units, a CpxRBM or CpxRBM_Nospinflip on up to 157 sites that was just initialised has a finite logarithmic amplitude for every configuration; its amplitudes lie between cos(n/100)^m and cosh(n/100)^m in modulus and its Born probabilities are 2^-n up to a factor (cosh(n/100)/cos(n/100))^(2m). From 158 sites on there are draws of the generator with which an amplitude vanishes. Entries of kernels drawn by cplx_variance_scaling are bounded by 1/sqrt of the number of their connections.", "quantifier": "every value of the random draws, number of hidden units, configuration, with and without bias; every shape with two or more axes", "why_tests_cant": "the statement is about all seeds and all configurations of exponentially many; a test sees a few seeds", "anchors": ["jVMC/nets/initializers.py:cplx_init", "jVMC/nets/initializers.py:cplx_variance_scaling", "jVMC/nets/rbm.py:CpxRBM", "jVMC/nets/rbm.py:CpxRBM_Nospinflip"]}
{"id": "C114", "title": "initScale scales the initial parameters", "statement": "The argument initScale of the recurrent networks is the factor by which the initial parameters are scaled: with the same seed, all entries of the kernels are proportional to it; for initScale=0 the initial state is the uniform superposition.", "quantifier": "every seed, scale, kernel shape, real and complex parameters, chains and square lattices", "why_tests_cant": "the relation must hold for all scales, seeds and layers; a test compares single values", "anchors": ["jVMC/nets/rnn1d_general.py:RNN1DGeneral", "jVMC/nets/rnn2d_general.py:RNN2DGeneral", "jVMC/nets/initializers.py:cplx_variance_scaling"]}
{"id": "C115", "title": "S_dot is the metric of the last evaluated state", "statement": "After any call of a TDVP object, the norm v^T S_dot(v) used in the examples is the variance of sum_k v_k O_k over the samples of that call (never negative, and independent of makeReal, diagonal shift, regularisation and cross validation). For wave functions with samples of relative error eps it is the squared speed of the state, up to norm and phase, when the parameters move with velocity v, up to the factor 1 +- eps; it vanishes exactly for changes of norm and phase; for distributions it is the squared Fisher-Rao length of the change. Before the first call S_dot raises AttributeError. A step of AdaptiveHeun with this norm is accepted only if the difference of its two results, as a change of the parameters of the last evaluation, has a squared length of at most the tolerance.", "quantifier": "every call, stage of the integration scheme, configuration, number of ranks, history, vector v, tolerance, number of attempts", "why_tests_cant": "the claim is about all vectors, states and histories of attempts; a test sees single numbers and no geometric meaning", "anchors": ["jVMC/util/tdvp.py:TDVP", "jVMC/util/stepper.py:AdaptiveHeun", "examples/ex5_dissipative_Lindblad.py:norm_fun", "examples/ex6_dissipative_Lindblad_2D.py:norm_fun"]}
{"id": "C116", "title": "Preparing product states", "statement": "Setting the bias of the output layer of a recurrent network for measurement outcomes to log(p_a/p_0), a = 1, 2, 3, where p = get_1_particle_distributions(state, povm), and multiplying its kernel with 1e-15, as the examples do, prepares the product state in which every spin is in the named state: all other parameters keep their values, the logarithmic probabilities of the network are those of the product state up to 1e-15 times the size of the old output layer per site, and measurements report the Bloch vector of the state and no correlations, up to an error of that size.", "quantifier": "every named state, angles of the POVM, cell type, depth, hidden size and parameters of the network, lattice size, chains and square lattices, symmetrisation with translations, reflections and rotations, outcome, number of ranks", "why_tests_cant": "the claim is about all exponentially many outcomes, all networks and all nested parameter dictionaries; the test of the repository prepares single states and checks averages", "anchors": ["examples/ex5_dissipative_Lindblad.py:copy_dict", "examples/ex6_dissipative_Lindblad_2D.py:copy_dict", "tests/povm_test.py:TestPOVM", "jVMC/operator/povm.py:get_1_particle_distributions", "jVMC/nets/rnn1d_general.py:RNN1DGeneral", "jVMC/nets/rnn2d_general.py:RNN2DGeneral", "jVMC/util/util.py:init_net"]}
{"id": "C117", "title": "Fermionic observables are expectation values in Fock space", "statement": "For an operator built with scal_opstr from creation, annihilation and number operators, measure reports the expectation value of the same sum of products of fermionic operators in Fock space, c_j^+|s> = (-1)^(s_0+...+s_(j-1))|s with mode j filled>, as documented in the example for fermions. In particular the Hamiltonian of that example is the Hubbard model on an open chain for every length, which is Hermitian and conserves the numbers of particles with spin up and spin down, the network Target of the example represents every real wave function up to 1e-15, and with an eigenvector as parameters the measured energy is the eigenvalue.", "quantifier": "every sum of products of fermionic operators, every number of modes, wave function, eigenvector, number of sites, hopping, chemical potential, interaction, number of ranks and batch size", "why_tests_cant": "the signs of the Jordan-Wigner factors have to be right for all exponentially many configurations and all products; the tests of the repository compare two-operator products and one Hamiltonian on a few modes", "anchors": ["examples/ex7_fermions.ipynb:Target", "examples/ex7_fermions.ipynb:hamiltonian", "jVMC/operator/branch_free.py:creation", "jVMC/operator/branch_free.py:annihilation", "jVMC/operator/branch_free.py:number", "jVMC/operator/branch_free.py:scal_opstr", "jVMC/operator/branch_free.py:BranchFreeOperator", "jVMC/util/util.py:measure", "jVMC/sampler.py:ExactSampler"]}
{"id": "C118", "title": "The errors reported during a dissipative run bound the distance from the master equation", "statement": "Evolve a real network of POVM outcomes with TDVP and rhsPrefactor=-1, as in the examples for dissipative dynamics. After every call, tdvp_error*ElocVar0 is the squared distance of the motion of the distribution from the rate equation, up to a factor 1+-eps for samples of relative error eps. With Euler, the distance sum|P-q| of the distribution of the network from the exact solution of the rate equation after any number of steps is at most the initial one plus the sum over the steps of dt*sqrt(tdvp_error*ElocVar0/(1-eps)), up to a discretisation error of first order in dt with an explicit constant, times exp(K*t), where K bounds the growth of distances (K=0 if all transition rates are non-negative). With Heun and AdaptiveHeun it is at most what the errors along the exactly integrated TDVP trajectory amount to, up to a discretisation error of second order. For a compiled POVMOperator the exact solution is the distribution of the outcomes in the solution of the Lindblad equation, so the magnetisations and correlations that measure_povm reports deviate from the true expectation values by at most 3 and 9 times this distance.", "quantifier": "every network that is smooth for the parameters that occur (bounded derivatives of the log-probabilities that change at bounded rates), POVM operator of predefined terms, initial state, number and size of steps, regularisation, observable; samples of any relative error below one", "why_tests_cant": "the exact solution and the distance from it are not available in general; the bound concerns whole runs of any length and every network", "anchors": ["jVMC/util/tdvp.py:TDVP.__call__", "jVMC/util/stepper.py:Euler.step", "jVMC/util/stepper.py:Heun.step", "jVMC/util/stepper.py:AdaptiveHeun.step", "jVMC/operator/povm.py:POVMOperator", "jVMC/util/util.py:measure_povm", "examples/ex5_dissipative_Lindblad.py"]}
{"id": "C119", "title": "Wave functions with zeros are sampled and measured correctly", "statement": "A symmetrised network in a non-trivial representation (for instance odd under reflection) vanishes on every configuration that is left unchanged by a symmetry with factor different from one, in particular often on the configuration with which all chains of a sampler start. For wave functions with zeros, in this way or otherwise, the exact sampler returns Born weights, Markov chains accept and reject with the right probabilities, leave a zero at the first opportunity and never come back, and measure reports the expectation value <psi|O|psi>/<psi|psi>.", "quantifier": "every symmetry group of chains and square lattices with every character, inner network, wave function that does not vanish everywhere, operator, number of ranks and devices, batch size, proposer, sequence of random numbers and number of updates", "why_tests_cant": "zeros depend on network, representation and lattice; what they do to weights, local values and averages depends on all configurations and on the whole history of a chain", "anchors": ["jVMC/nets/sym_wrapper.py:SymNet", "jVMC/nets/sym_wrapper.py:avgFun_Coefficients_Exp", "jVMC/util/symmetries.py:get_orbit_1D", "jVMC/util/symmetries.py:get_orbit_2D_square", "jVMC/sampler.py:ExactSampler.sample", "jVMC/sampler.py:MCSampler._sweep", "jVMC/operator/base.py:Operator.get_O_loc", "jVMC/util/util.py:measure"]}
{"id": "C120", "title": "Large and small amplitudes: the limited range of floating point numbers", "statement": "Only ratios of amplitudes matter, so the overall normalisation of a network must not: with numbers that become infinite above the largest double and zero below the smallest one, the exact sampler returns the Born probabilities of every wave function, at every call of a long simulation, Markov chains take the decisions of exact arithmetic, the weights of Markov chain samples, averages over symmetries and local estimators are finite and right, and what is returned for one sample does not depend on the others in its batch.", "quantifier": "every range of floating point numbers, history of wave functions, normalisation, number of ranks and devices, logProbFactor and mu, proposer, sequence of random numbers, operator, batch", "why_tests_cant": "overflow depends on the size of amplitudes, which grows with system size and in the course of a run; the state of the sampler carries over from call to call; tests use small systems with amplitudes of order one", "anchors": ["jVMC/sampler.py:ExactSampler.sample", "jVMC/sampler.py:ExactSampler._normalize", "jVMC/sampler.py:MCSampler.sample", "jVMC/sampler.py:MCSampler._sweep", "jVMC/nets/sym_wrapper.py:avgFun_Coefficients_Sep", "jVMC/operator/base.py:Operator.get_O_loc", "jVMC/operator/base.py:Operator.get_s_primes", "jVMC/global_defs.py:tReal"]}
{"id": "C121", "title": "Sampling at zero magnetisation", "statement": "With propose_spin_flip_zeroMag the library samples states of zero magnetisation. For operators that keep the magnetisation the means reported by measure approach the expectation value in the component of the wave function with zero magnetisation, for every wave function, number of ranks and devices; TDVP steps with samples of this component lower (imaginary time) or keep (real time) its energy; the magnetisation itself is reported as exactly zero without statistical error; every returned configuration has zero magnetisation; other operators are measured in the same component.", "quantifier": "every even number of sites, wave function, operator, number of ranks, devices and chains, number of samples, sequence of random numbers, initial state including the default one", "why_tests_cant": "the statement concerns the limit of many samples and every history of a chain; the default initial state is outside the sector and the chain finds the sector only if its random walk gets there", "anchors": ["jVMC/sampler.py:propose_spin_flip_zeroMag", "jVMC/sampler.py:MCSampler.__init__", "jVMC/sampler.py:MCSampler._get_samples_mcmc", "jVMC/util/util.py:measure"]}
{"id": "C122", "title": "Data types of the parameters are checked once and then kept", "statement": "A network whose parameter arrays differ in data type is refused: every evaluation raises, whatever was called before, and its parameters can neither be read nor set. A network with one floating point or complex data type is accepted, its parameter vector has one entry for every real and two for every complex parameter, and set_parameters and update_parameters work for it as for any other network of that kind. A network which was refused cannot be sampled either.", "quantifier": "for every tree of parameter arrays with any data types, any further variable collections, and every history of evaluations, set_parameters, update_parameters and assignments to params, including calls that raised and were caught", "why_tests_cant": "tests build networks with one data type (double precision) and call the methods in the intended order; the object after an exception, other precisions and arbitrary histories are not run", "anchors": ["jVMC/vqs.py:NQS.init_net", "jVMC/vqs.py:NQS.set_parameters", "jVMC/vqs.py:NQS.update_parameters", "jVMC/vqs.py:NQS.get_parameters", "jVMC/vqs.py:NQS.get_sampler_net", "jVMC/vqs.py:NQS.sample"]}
{"id": "C123", "title": "Operations on statistics objects can be chained", "statement": "Applying select, transform, subset and covar_data one after the other, in any order and any number, to a SampledObs with positive weights gives the SampledObs of the samples that result from doing the same to the samples one by one, with the weights divided by what is left of the total after every subset. In particular choosing components and choosing samples commute.", "quantifier": "for every finite chain of calls, every selection, function and slice, every number of ranks and devices, every distribution of the samples over them, all observations and all positive weights", "why_tests_cant": "tests apply one operation to one object with a handful of samples; the internal data are weighted and centred, so every operation must undo what the one before did, for all weights and chains", "anchors": ["jVMC/stats.py:SampledObs.select", "jVMC/stats.py:SampledObs.subset", "jVMC/stats.py:SampledObs.transform", "jVMC/stats.py:SampledObs.covar_data"]}
{"id": "C124", "title": "Arguments of constructors and time steps", "statement": "Arguments given by name do what they say or are refused. (1) A call of a constructor is accepted exactly if it gives no more positional arguments than there are, no unknown name, no parameter twice and no required one is missing; then every parameter has the value given or its default value, and all other calls raise TypeError. (2) The operator classes accept their own parameters and ElocBatchSize only. (3) stepper.step(t, f, y, psi=..., hamiltonian=..., ...) evaluates the TDVP or MinSR equation at each of its stages with this psi and hamiltonian, the given numSamples and outp (None otherwise) and with intStep equal to the number of the stage; dt replaces the time step of Heun, normFunction is the norm of AdaptiveHeun; without psi or hamiltonian, or with a name the step uses itself, TypeError is raised. (4) Unknown arguments of step are refused. (5) The calls in the example scripts are accepted.", "quantifier": "for every list of positional and keyword arguments with all their names and values, every integrator, right-hand side, state and time", "why_tests_cant": "tests call the functions with the right names; whether a misspelt or outdated name is refused, ignored or takes the place of another argument is a statement about all argument lists", "anchors": ["jVMC/util/tdvp.py:TDVP.__init__", "jVMC/util/tdvp.py:TDVP.__call__", "jVMC/util/minsr.py:MinSR.__call__", "jVMC/util/stepper.py:Euler.step", "jVMC/util/stepper.py:Heun.step", "jVMC/util/stepper.py:AdaptiveHeun.step", "jVMC/operator/branch_free.py:BranchFreeOperator.__init__", "jVMC/operator/povm.py:POVMOperator.__init__", "examples/ex0_ground_state_search.py"]}
{"id": "C125", "title": "Rounding errors of sums, means, variances and weights", "statement": "In floating point arithmetic the reductions over ranks and devices are right up to a known error, whatever order XLA and MPI add in. global_sum and global_mean return the exact sum and mean of numbers that differ from the given ones by at most n+d+k relative rounding errors each (n numbers per device, d devices, k ranks), so the error is at most (1+u)^(n+d+k-2)-1 times the mean of the magnitudes (2^-52 (n+d+k) times it in double precision); two layouts of the same samples, and two ranks of one call, differ by no more than their error bounds. The weights returned by the samplers and their sum, and means with these weights, are right up to n+d+k such errors. global_variance is never negative and has a small relative error plus the error of the mean: small variances of large data are not lost. With one device per rank for the variance.", "quantifier": "for every rounding function with relative error u<1, every order of the additions on devices, between devices and between ranks, with and without fused multiply-add, and all data, weights and layouts", "why_tests_cant": "tests compare with a tolerance for a few arrays on one machine; the order of additions depends on the machine and the layout, and the bound has to hold for all of them", "anchors": ["jVMC/mpi_wrapper.py:global_sum", "jVMC/mpi_wrapper.py:global_mean", "jVMC/mpi_wrapper.py:global_variance", "jVMC/sampler.py:MCSampler.sample", "jVMC/sampler.py:ExactSampler.sample"]}
{"id": "C126", "title": "The records of a ground state search", "statement": "ground_state_search with an OutputManager and observables writes one record before the first update and one after every update: the times are the numbers 0, 1, ..., n of the steps, and row k of mean, variance and MC_error of each observable is what measure returns for the state after k updates, for every rank and every operator of the observable, whatever the names of the observables are. Recording does not change the search; without observables nothing is written; what was in the file before stays. With exact measurements row k is the expectation value in the state after k updates, and the recorded energies decrease from row to row as far as the steps are small.", "quantifier": "every optimiser, number of steps, tolerance, step size and shift, every file and group, history of earlier calls of the output manager, observables with every number of operators, network and Hamiltonian", "why_tests_cant": "the file is the result of a loop whose length depends on the data and in which the state, the sampler, the optimiser and the file change together; tests run a few steps and do not read the file", "anchors": ["jVMC/util/util.py:ground_state_search", "jVMC/util/util.py:measure", "jVMC/util/output_manager.py:OutputManager.write_observables"]}
{"id": "C127", "title": "A whole unitary time evolution", "statement": "The time evolution of examples/ex2 (AdaptiveHeun with the TDVP equation until a final time, measuring the observables before the first and after every step) records one row for the initial state and one per step: row k holds the accumulated time and what measure returns for the network whose parameters are those after k steps, consecutive rows are joined by one adaptive step of the TDVP equation, and the last row is the first at or after the final time. Times increase strictly by at most the largest time step, so the final time is exceeded by less than one step. If the velocities are bounded the evolution ends, after a number of steps known in advance. The parameters of every row stay close to the solution of the TDVP equation, with an explicit bound from the time steps and the errors of the velocities. With exact measurements every row holds the expectation values of the recorded state; these differ from those of the solution of the Schroedinger equation by a bound that the reported TDVP errors give, and the recorded energies stay at the initial energy up to the errors of the time steps.", "quantifier": "every Hamiltonian, network, sampler, TDVP setting, list of observables, norm function, final time, tolerance, first and largest time step; any number of steps", "why_tests_cant": "number and size of the steps depend on the data; a test runs one Hamiltonian to one final time and compares numbers with a tolerance", "anchors": ["examples/ex2_unitary_time_evolution.py", "jVMC/util/stepper.py:AdaptiveHeun.step", "jVMC/util/tdvp.py:TDVP.__call__", "jVMC/util/util.py:measure", "jVMC/vqs.py:NQS.set_parameters"]}
{"id": "C128", "title": "Parameters as nested dictionaries", "statement": "The parameters of a network are dictionaries of dictionaries of arrays. get_parameters lists their entries in the order of the paths to the arrays (alphabetically), set_parameters(v) writes them back in this order, and no call changes where an array is or how many entries it has; the order in which the items of a dictionary were inserted plays no role. What psi.params returns can be given back: psi.params = psi.params and psi.set_parameters(psi.params) change nothing; set_parameters refuses dictionaries with another structure.", "quantifier": "every nesting of dictionaries and every insertion order, real and complex networks, every history of evaluations, set_parameters with dictionaries and vectors, update_parameters and assignments to psi.params, FrozenDict and plain dictionaries", "why_tests_cant": "the order of flattening is a matter of all trees; tests use one network whose keys happen to be in alphabetic order, and dictionaries that were frozen by the test", "anchors": ["jVMC/vqs.py:NQS.set_parameters", "jVMC/vqs.py:NQS.get_parameters", "jVMC/vqs.py:NQS._param_unflatten", "jVMC/vqs.py:NQS.params", "jVMC/vqs.py:NQS.update_parameters"]}
{"id": "C129", "title": "Site indices of operators name sites", "statement": "The index given to a local operator (Sx(idx), creation(idx), ...) names the site it acts on; a negative index counts from the end, as for every array. An index that names no site of the lattice is refused when the operator is used.", "quantifier": "every branch-free operator, every integer index, every number of sites and local dimension, all configurations", "why_tests_cant": "indices out of range are not an error in traced code, and a test of a particular Hamiltonian uses indices that are in range", "anchors": ["jVMC/operator/branch_free.py:BranchFreeOperator._get_s_primes", "jVMC/operator/branch_free.py:BranchFreeOperator.compile", "jVMC/operator/branch_free.py:LocalOp"]}
{"id": "C130", "title": "Sites of the terms of a POVM operator", "statement": "Every term added to a POVMOperator contributes to it: the sites of the term name sites of the lattice, negative ones from the end, and sites that do not exist are refused.", "quantifier": "every list of terms, every tuple of integers as sites, every order in which Python enumerates a set, every size of the lattice", "why_tests_cant": "the sites decide through nested loops and indices in traced code what becomes of a term; a term that is dropped changes nothing but numbers", "anchors": ["jVMC/operator/povm.py:POVMOperator.compile", "jVMC/operator/povm.py:POVMOperator._get_s_primes", "jVMC/operator/povm.py:POVMOperator.add"]}
{"id": "C131", "title": "An integration step never goes on with failed evaluations", "statement": "When AdaptiveHeun.step returns, its last attempt consisted of finite numbers and the deviation of its two results was at most the tolerance, also if the right-hand side returned NaN or infinite numbers at some time; otherwise the step is rejected or an exception is raised. A time evolution that ends without an exception has reached its final time with parameters that are numbers.", "quantifier": "every right-hand side with values that may be infinite or NaN at any stage of any attempt, every norm, tolerance, time step, number of attempts and steps", "why_tests_cant": "the claim is about all failures at all stages and histories; a NaN passes every comparison silently", "anchors": ["jVMC/util/stepper.py:AdaptiveHeun.step", "jVMC/util/stepper.py:Heun.step", "jVMC/util/stepper.py:Euler.step", "examples/ex2_unitary_time_evolution.py"]}
{"id": "C132", "title": "Symmetries are selected by name", "statement": "get_orbit_1D(L, *names, **factors) and get_orbit_2D_square return the group generated by exactly the symmetries that are named, each element with its value in the representation given by the factors; the order of the names, repeated names and factors of symmetries that are not named do not matter; every documented name (\"reflection\", \"rotation\", \"translation\", \"spinflip\") is accepted together with its factor and other names are rejected. A description passed to init_net symmetrises with the symmetries that it switches on and with no others.", "quantifier": "all lattice sizes, all lists of names, all factors, all descriptions with any further entries", "why_tests_cant": "Tests call the functions with one or two correctly spelt lists of names; the claim is about every list of strings and every dictionary.", "anchors": ["jVMC/util/symmetries.py:get_orbit_1D", "jVMC/util/symmetries.py:get_orbit_2D_square", "jVMC/util/util.py:init_net"]}
{"id": "C133", "title": "Integration with rounding errors", "statement": "In floating point arithmetic, a loop of Euler or Heun steps still follows the solution: its error is the one with exact numbers (C96) plus what rounding adds, which is bounded by the unit roundoff times the size of the parameters divided by the time step (plus a multiple of the size of the derivative), accumulated over the elapsed time. The time that the loop reports after n steps is n times the time step up to n relative rounding errors, and a loop `while t < tmax` ends after the number of steps that reach tmax.", "quantifier": "all right-hand sides that are Lipschitz continuous near the solution (with errors of the evaluations), all numbers of parameters, roundings with any bound on the relative error (in particular double precision), fused or separate multiplications and additions, time steps, end times and numbers of passes", "why_tests_cant": "A test compares one short run with a tolerance far above rounding errors; the claim bounds every run, and the number of passes depends on how the particular numbers round.", "anchors": ["jVMC/util/stepper.py:Euler.step", "jVMC/util/stepper.py:Heun.step", "examples/ex2_unitary_time_evolution.py", "tests/povm_test.py"]}
{"id": "C134", "title": "Rounding errors of Markov chains", "statement": "MCSampler decides about proposals in floating point arithmetic: the network values have errors, their difference and the exponential function are rounded, and the uniform numbers have 52 bits. The probability that a proposal is accepted differs from the exact Metropolis probability by at most the sum of these errors. The rounding errors do not accumulate in the cached log-probabilities: after any number of updates each cached number is the one computed for the chain's configuration. For proposers that reach all configurations the distribution of the chains stays close to |psi|^mu however many updates are made: within the distance that exact arithmetic would give plus a multiple of the error of a single acceptance probability, where the multiple does not depend on the number of updates, the arithmetic or the initial distribution.", "quantifier": "All floating point arithmetics with bounded relative error, all exponential functions with bounded error (including overflow and underflow), all networks values, finite configuration spaces, proposers, numbers of chains, initial distributions and numbers of updates.", "why_tests_cant": "A bias of 1e-15 per decision is invisible in any test; whether such biases add up over millions of updates can only be settled by a bound that is uniform in the number of updates.", "anchors": ["jVMC/sampler.py: MCSampler._sweep, _mc_init, _get_samples", "jVMC/sampler.py: propose_spin_flip, propose_spin_flip_zeroMag"]}
{"id": "C135", "title": "Rounding errors of local estimators and measurements", "statement": "In floating point arithmetic get_O_loc returns the local estimator sum_s' O_ss' psi(s')/psi(s) up to a known relative error of sum_s' |O_ss' psi(s')/psi(s)|: the errors of the logarithmic amplitudes and of the matrix elements, the rounding of their difference, the error of the exponential function, the rounding of the product and of the sum simply add up, whatever order XLA adds in. The mean that measure reports over all ranks and devices has the same kind of error, with the errors of global_mean added. At an eigenstate, where all exact local estimators are equal, the reported variance is of the order of the square of these errors.", "quantifier": "All floating point arithmetics with bounded relative error, all exponential functions with bounded relative error, all matrix elements and amplitudes, all numbers of terms, samples, devices and ranks, and all orders of summation.", "why_tests_cant": "Tests compare with a tolerance on a few operators and states; how the errors grow with the number of terms, ranks and the size of the logarithmic amplitudes is a statement about all of them.", "anchors": ["jVMC/operator/base.py: Operator.get_O_loc, _get_O_loc", "jVMC/util/util.py: measure", "jVMC/mpi_wrapper.py: global_mean, global_variance"]}
{"id": "C136", "title": "Rounding errors of direct sampling", "statement": "In floating point arithmetic the samples a recurrent network draws (sample, with or without random symmetry operations, on chains and square lattices) follow |psi|^(1/logProbFactor) of the exact network up to a total error of at most the number of sites times an explicit error of one draw; means over the samples are accurate correspondingly. The logarithmic amplitudes that __call__ returns are accurate up to an explicit bound, so that samples and amplitudes fit together, although they are computed by different code. The error of one draw is determined by the errors of the coefficients which the cell and the output layer compute, of the exponential function, the logarithm, the sums and the random draw, and by the size of the coefficients.", "quantifier": "All floating point arithmetics with bounded relative error, all cells and output layers (exact and computed), all numbers of local states and sites, all orders of summation, all symmetry groups of the library.", "why_tests_cant": "Tests compare histograms of a few thousand samples with probabilities for a few sites; that errors add up linearly with the number of sites, for every network, cannot be seen in histograms.", "anchors": ["jVMC/nets/rnn1d_general.py: RNN1DGeneral.log_coeffs_to_log_probs, __call__, sample", "jVMC/nets/rnn2d_general.py: RNN2DGeneral.log_coeffs_to_log_probs, __call__, sample", "jVMC/sampler.py: MCSampler._get_samples_gen"]}
{"id": "C137", "title": "Rounding errors of covariances and of the TDVP equation", "statement": "In floating point arithmetic, SampledObs.covar and var, and with them the matrix S and the vector F of the TDVP equation (with makeReal, rhsPrefactor and diagonalShift), differ from the covariances of the given data by an explicit bound, whatever the order in which samples, devices and ranks are added up and even if ranks receive different means: a relative error of the product of the standard deviations plus the errors of the means. There is no cancellation: small fluctuations of large data survive. Variances are not negative. The quadratic form of the computed matrix is at least that of the diagonal shift up to these errors, so that negative eigenvalues are of their size. A vector that solves the computed equation up to a residual is as close to the solution of the exact equation as the residual and these errors, divided by the least eigenvalue (which is at least the diagonal shift times the least variance of the derivatives). In double precision the bound is 2^-49 times four times the number of samples per device, devices and ranks times the size of the data.", "quantifier": "All floating point arithmetics with bounded relative error, all data and weights, all numbers of samples, devices, ranks and parameters, all orders of summation, all settings of makeReal, rhsPrefactor and diagonalShift.", "why_tests_cant": "Tests compare with numpy on small data sets with a tolerance; how the errors scale with the number of samples and ranks and with the size of the fluctuations is a statement about all data.", "anchors": ["jVMC/stats.py: SampledObs.__init__, _compute_data_and_mean, covar, var", "jVMC/util/tdvp.py: TDVP.get_tdvp_equation", "jVMC/mpi_wrapper.py: global_sum"]}
{"id": "C138", "title": "The Ising Hamiltonians of the examples", "statement": "The operator that the example scripts assemble in a loop with scal_opstr, Sz, Sx and add is the Ising chain sum_l (-Z_l Z_(l+1) + g X_l + h Z_l) on a ring of L spins: its matrix elements are those of that matrix for every L, all couplings and whatever further arguments (such as the time) are passed on, get_O_loc computes sum_l (-z_l z_(l+1) + h z_l) + g sum_l psi(s with spin l flipped)/psi(s) for every sample, and measure with the exact sampler returns <psi|H|psi>/<psi|psi>, which is at most L (1+|g|+|h|) in absolute value. The Hamiltonian is Hermitian for real couplings and commutes with translations and reflections and, exactly for h = 0, with the exchange of up and down, so that the symmetries of the example networks are symmetries of the problem. The observable X is the average of the X_l, with measured values between -1 and 1. All this holds on any number of MPI ranks.", "quantifier": "All numbers of spins, complex couplings, wave functions, samples, numbers of devices and ranks, further arguments.", "why_tests_cant": "A test compares energies for one chain length with exact diagonalisation; that the loop builds the intended Hamiltonian for every length, including one and two spins, and the failure with 50 or more strings on several ranks, is not visible there.", "anchors": ["examples/ex0_ground_state_search.py: hamiltonian", "examples/ex2_unitary_time_evolution.py: hamiltonian, observables", "examples/ex4_benchmarking.py: hamiltonian", "jVMC/operator/branch_free.py: scal_opstr, BranchFreeOperator, Sx, Sz", "jVMC/util/util.py: measure"]}
{"id": "C139", "title": "Rounding errors of the MinSR update", "statement": "In floating point arithmetic the tangent kernel that MinSR inverts and the update that MinSR.solve returns differ from the exact kernel of the given data and from -X^dagger P E (with the matrix P that pinv returned, the exact centred gradients X and local energies E) by explicit bounds, whatever the order of the additions, whether products are fused, and however the samples are distributed over devices and ranks. The update that is returned satisfies the equation X U = -E of the exact data up to these errors and the residual of pinv for the kernel it was given. Without rounding errors it is the update of the exact formula.", "quantifier": "All floating point arithmetics with bounded relative error, all data and weights, all numbers of samples, devices, ranks and parameters, all orders of summation, any behaviour of pinv.", "why_tests_cant": "Tests compare the MinSR update with the TDVP update for one small network with a tolerance; how errors grow with the numbers of samples and parameters is a statement about all data.", "anchors": ["jVMC/util/minsr.py: MinSR.solve", "jVMC/stats.py: SampledObs.tangent_kernel, SampledObs.__init__"]}
{"id": "C140", "title": "Operators defined by users", "statement": "A class that inherits from Operator and whose compile() returns a function from a configuration to the list of its connected configurations and their matrix elements, as documented, gives the right local estimator: get_O_loc returns, for every sample, the sum of the matrix elements times the ratios of amplitudes. In particular the operator sigma^x in the documentation of Operator (the example script ex1) gives the ratio of the amplitudes of the configuration with the flipped spin and the sample.", "quantifier": "All functions with the documented interface, all shapes of configurations, numbers of samples and of connected configurations, all networks; for the example all sites, chain lengths and configurations.", "why_tests_cant": "Tests only use the operators of the package; the documented interface is a promise about every user-defined function, and the example script never passes its operator to get_s_primes.", "anchors": ["jVMC/operator/base.py: Operator, Operator.get_s_primes, Operator.get_O_loc", "examples/ex1_custom_operator.py: SxOperator"]}
{"id": "C141", "title": "The Lindbladians of the examples generate their master equations", "statement": "The operators that the two example scripts for dissipative dynamics build compile, and their matrix elements take the distribution of the POVM outcomes in any state to the time derivative of this distribution under the master equation with the Hamiltonian of a transverse-field Ising model (couplings 1 between nearest neighbours, periodic in every direction, field 3) and with dephasing of every spin (rate 1 on the chain, 1/2 on the square lattice). The sum of the probabilities does not change, and the uniform distribution of the outcomes is stationary.", "quantifier": "All lengths and widths of at least two, all directions of the SIC-POVM, all orders in which Python runs through the set of site tuples, all states.", "why_tests_cant": "The scripts use four sites; which bonds and which rates the loops over neighbours produce on every lattice, and that repeated terms on the same sites add up, is a statement about all sizes.", "anchors": ["examples/ex5_dissipative_Lindblad.py: Lindbladian", "examples/ex6_dissipative_Lindblad_2D.py: xy_to_id, Lindbladian", "jVMC/operator/povm.py: POVMOperator.add, POVMOperator.compile, POVM"]}
{"id": "C142", "title": "Dissipative time evolutions of the examples", "statement": "The time evolutions of examples/ex5 and ex6 (record the time, measure, one step of AdaptiveHeun with the TDVP equation and a norm that uses the S matrix of its last evaluation, until a final time) return lists of equal length: entry k holds the accumulated time after k steps and what the measurement gives for the parameters after k steps. Consecutive entries are joined by one adaptive step whose two results deviate by at most the tolerance in the metric of its last evaluation. Recorded times start at 0, increase strictly by at most the largest time step and lie before the final time; the evolution ends with the first step that reaches it, exceeds it by less than the largest time step, and leaves the parameters after that step in psi. The norm is never negative when it is used, whatever the samples are. The evolution ends if velocities and metric are bounded. Although every step is told that the time is 0, the recorded parameters follow the solution of the equation of motion with an error of second order in the largest time step, since the equation does not depend on time.", "quantifier": "All right-hand sides, norms that depend on the last evaluation, measurements, final times, tolerances, first and largest time steps, initial parameters; any number of steps and of rejected attempts.", "why_tests_cant": "The number of steps and of rejected attempts depends on the data; a test runs one Lindbladian to one final time.", "anchors": ["examples/ex5_dissipative_Lindblad.py: norm_fun, times, res", "examples/ex6_dissipative_Lindblad_2D.py: norm_fun, times, res", "jVMC/util/stepper.py: AdaptiveHeun.step", "jVMC/util/tdvp.py: TDVP.S_dot"]}
{"id": "C143", "title": "The user-defined network of examples/ex3", "statement": "psi(configs) with the network of examples/ex3 returns one coefficient per configuration, in order, for every batch size; the amplitude of a configuration of zeros and ones is the product over the hidden units j of cosh(b_j + sum_i W_ij (2 s_i - 1)), which without biases is invariant under flipping all spins. Setting a vector of biases and kernel entries gives the network with these parameters. The script calls the network a complex RBM; but flax creates real parameters, since only dtype and not param_dtype is given: whatever real vectors are set or added, also if some of these calls fail, all coefficients are real and not negative, and states of a complex RBM are not reached.", "quantifier": "All numbers of sites and hidden units, parameters, configurations, batch sizes, histories of evaluations, set_parameters and update_parameters with real vectors of any type and length.", "why_tests_cant": "Whether the network has the advertised form for all parameters, and which states can be reached by any sequence of updates, is not visible from the shape of one result, which is what the script checks.", "anchors": ["examples/ex3_custom_net.py: MyNet, psi, coeffs", "jVMC/vqs.py: NQS.__call__, NQS.set_parameters, NQS.update_parameters, NQS.init_net"]}
{"id": "C144", "title": "The ground state search of examples/ex0", "statement": "The search of examples/ex0 (Euler steps with the TDVP equation, a row of results after each step) returns a row for every step, in order; row k holds energy and variance per site of the state before step k, each step adds the time step times the returned update, and psi has the parameters after the last step, whose energy is in no row. With exactly weighted samples no recorded energy is below the ground state energy per site, and some level lies within the recorded standard deviation. The reference energy the results are compared with, a sum over momenta, is the ground state energy per site of the Hamiltonian that the script builds.", "quantifier": "All networks, Hamiltonians, options of the TDVP equation, step sizes, numbers of steps, histories of psi, ranks; for the reference energy all fields and lengths.", "why_tests_cant": "A test runs one search; whether the reference energy is that of the chain for all lengths and fields, and that the recorded energies stay above it, are statements about all states.", "anchors": ["examples/ex0_ground_state_search.py: energy_single_p_mode, ground_state_energy_per_site, exact_energy, res", "jVMC/util/stepper.py: Euler.step", "jVMC/util/tdvp.py: TDVP.__call__"]}
{"id": "C145", "title": "Rounding errors of real Boltzmann machines and of log_cosh", "statement": "With floating point numbers, sums in any order and elementary functions of relative error v, the coefficient RBM returns for a configuration of spins 0, 1 differs from the exact sum of log cosh by at most (2(n+2)u + 6mu + 3v) times the sum over hidden units of 1 plus the moduli of the parameters of the unit (n sites, m units, machine precision u); so the amplitude has a relative error of at most twice this. The activation function log_cosh of a real number x has an error of at most 8(u+v)(|x|+1), for both signs. Markov chains of such a network drift away from those of exact arithmetic by at most a multiple of these errors per update, and single spin flips sample |psi|^mu up to a multiple of these errors however long they run.", "quantifier": "All numbers of sites and units with (n+2)u, mu at most 1/2, all real parameters, with and without bias, all spin configurations, all orders of summation, all accurate elementary functions; for log_cosh all real numbers.", "why_tests_cant": "A test compares a few values up to a tolerance; a bound for every parameter, configuration and order of summation of the compiler cannot be sampled.", "anchors": ["jVMC/nets/rbm.py: RBM.__call__", "jVMC/nets/activation_functions.py: log_cosh", "jVMC/global_defs.py: tReal"]}
{"id": "C146", "title": "Rounding errors of adaptive time steps", "statement": "AdaptiveHeun.step in floating point arithmetic, with a right-hand side whose evaluations deviate from G by up to eps: (1) if the evaluations are bounded close to the initial value the step returns, whatever is rounded, with a number of rejected attempts known in advance; no sequence of attempts is rejected for ever. (2) The returned time step is positive and at most 0.95^n times the initial one after n rejected attempts; the next one is positive, at most maxStep, and at most doubled up to rounding. (3) The returned value is that of two exact Heun steps of half the returned size, up to 2u(|y|+4hV) + 2h(eps + L times the rounding of the arguments). (4) The step is one that exact arithmetic would accept up to these errors: one exact Heun step and two half steps deviate by at most the tolerance plus them. (5) A whole evolution, as in the examples, stays close to the solution of the differential equation: after n steps the deviation is at most the initial one plus n times the error of a step plus an error of second order in maxStep, times the exponential growth of errors. (6) When the loop while t < tmax ends, its clock has reached tmax, has passed it by at most maxStep up to rounding, and is the sum of the steps up to one relative rounding error per pass.", "quantifier": "All dimensions, initial values, right-hand sides with internal state (also sampled ones) that are bounded close to the initial value (for accuracy: close to a Lipschitz function), tolerances, initial and largest steps, norms comparable to the largest modulus, roundings with u <= 1/64 and every choice of fused operations.", "why_tests_cant": "A test runs a few steps and compares up to a tolerance; that the loop ends and the step is accurate for every right-hand side and every rounding is a statement about all executions.", "anchors": ["jVMC/util/stepper.py: AdaptiveHeun.step, AdaptiveHeun.__init__", "jVMC/global_defs.py: tReal"]}
{"id": "C147", "title": "Rounding errors of symmetrised networks", "statement": "In floating point arithmetic, with a network whose real coefficients err by at most delta on the K images of a configuration and have size M, SymNet returns the logarithm of the weighted sum of the amplitudes up to delta plus about u(3M + 2K) + 2v plus (u+v) times the logarithms of the weights, for positive factors, in whatever order the compiler adds; with the average of logarithms the error is at most delta + 2KuM, and avgFun_Coefficients_Sep gives half the logarithm of the mean probability up to delta plus about u(2M + K) + v(M + 1). A common large constant in the coefficients does no harm to the sum. Every network and configuration has such a value.", "quantifier": "All networks (as relations between configurations and the numbers the machine can return), orbits of any number of matrices, configurations, positive factors, roundings with u <= 1/2, elementary functions of relative error v <= 1/2, orders of summation.", "why_tests_cant": "A test compares a few sums up to a tolerance; a bound for every orbit, network and order of summation cannot be sampled.", "anchors": ["jVMC/nets/sym_wrapper.py: SymNet.__call__, avgFun_Coefficients_Exp, avgFun_Coefficients_Log, avgFun_Coefficients_Sep", "jVMC/global_defs.py: tReal"]}

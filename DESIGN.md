# A formal model of jVMC (markusschmitt/vmc_jax) in Lean 4

This file says what is modelled, how each property of `properties.jsonl` is
stated and proved, and what has to be trusted.

## 1. Layout

    lean/Verif/Model/*.lean   the model: one definition per Python function, each with
                              a comment giving file and lines in /repo and the simplifications
    lean/Verif/Spec/*.lean    small, independent vocabulary used to *state* properties
                              (plain sums over all samples, matrices of an operator string, ...)
    lean/Verif/Lemmas/*.lean  helper lemmas (not part of any claim)
    lean/Verif/Props/*.lean   the property theorems, named c01_..., c02_..., each with
                              non-vacuity `example`s beside it
    lean/Verif.lean           imports everything
    MANIFEST.json             property -> theorem names and status
    seeded/LOG.jsonl          wrong-program experiments (mutations of the model)

## 2. Modelling principles

* Shallow embedding: each Python function becomes a total Lean function which mirrors it
  branch by branch. Python exceptions are values (`Except PyErr`/`Option`), not totalised away.
* Python `int`s are `Nat`/`Int`; float64/complex128 are idealised as exact `ℝ`/`ℂ`
  (or an arbitrary field / ring / vector space when nothing more is needed).
  Rounding, overflow, NaN and infinities are **not** modelled, except where a comment says so.
* Arrays are lists when the code manipulates indices (batching, compression, scans) and
  functions on finite index types when it does linear algebra.
* MPI is modelled as SPMD: one value per rank, collectives are functions of the list of all
  ranks' contributions; where blocking matters (C07) ranks are explicit sequences of
  collective calls.
* `pmap` over devices is a map over the device axis, `lax.psum` the sum over it.
* `lax.scan`, `fori_loop` are folds; `jit`/`vmap` are the identity / a map. Compilation caches
  that can go stale (device list, operator recompilation) are modelled as explicit state.
* Random numbers: a proposer is a function of an explicit draw; probabilities are
  exact counting / finite real-valued measures. PRNG keys are a free splitting tree (C20).
* Networks are arbitrary functions of (parameters, configuration), except where their
  structure is the point (RNN, CNN, RBM, SymNet).

## 3. Trusted base

* Lean 4.33.0 kernel (replayed by `vcheck`), Mathlib definitions used in statements.
* Axioms of the theorems named in MANIFEST.json (from `#print axioms`). No own axioms, no `sorry`,
  no `native_decide`/`bv_decide`.
  * no axioms: `c12_direct_violated`, `c21_batch_zero`, `c33_violated`
  * `propext`: `c01_zero_chains`, `c03_gather`, `c33_terms_recorded`, `c39_direct_insert_lost`, `c42_step_zero`
  * `Quot.sound`, `propext`: `c03_global_sum`, `c03_no_devices`, `c124_constructors`, `c33_argument_number_partial`, `c33_never_stale`
  * `Classical.choice`, `Quot.sound`, `propext`: all other theorems of MANIFEST.json (870)
* The correspondence of the model to the Python source, established by reading (citations on
  every definition). JAX, flax, numpy, h5py and MPI library semantics are as summarised in comments.
* Exact arithmetic: float64/complex128 are ℝ/ℂ. Where NaN or infinity can arise from the
  formulas themselves (0/0, log 0, empty sums) they are modelled as values (`Flt`, `Num`, `LogVal`,
  `RealLog`); overflow and underflow are modelled in Model/FloatRange (C120), rounding of reductions in Model/Rounding (C125), not elsewhere.

### What is modelled

| file in /repo/jVMC | modelled | not modelled |
|---|---|---|
| mpi_wrapper.py | everything except timing measurements (the accumulator is); also as a program per rank under every interleaving (Model/Spmd, Model/SpmdCode) | the MPI library (collectives synchronise all ranks), message sizes |
| global_defs.py | device lists, `pmap_for_my_devices`, recompilation | device discovery, dtypes |
| sampler.py | proposers, MCSampler (constructor checks, keys, sweeps, thermalisation, counters, weights, direct sampling (counts, weights, the distribution on all ranks), Markov chain sampling as a distribution on all ranks, the dictionary of compiled functions, updates with rounding errors (Model/ChainRounding)), ExactSampler | other jit caching; the generator behind the keys (draws are arbitrary or uniform and independent) |
| stats.py | SampledObs with all methods on given observations, `mean_and_grad`; means, `covar` and `var` also with rounding errors (Model/CovarRounding) | jit caches |
| vqs.py | batching, parameters, gradients, gradient modes, initialisation, data types, nested dictionaries (Model/ParamDict), `sample` | the initial values of parameters |
| operator/base.py | compression, local estimators (also with rounding errors: Model/LocalRounding), batching, caches, estimator functions | shapes of jit-compiled buffers |
| operator/branch_free.py | predefined operators, string algebra, compilation, prefactors, fermions, any site indices (Model/SiteIndex) | `scal_opstr` on malformed inputs |
| operator/povm.py | POVMs, superoperators, registry, compilation with any integers as sites (Model/PovmSites), observables, measurement | arguments of wrong shapes |
| util/tdvp.py | TDVP: equations, eigenbasis, SNR, pseudo-inverse loop, cross validation, metadata, calls, `S_dot` (Model/SDot), the equation also with rounding errors (Model/CovarRounding) | choice of the device for the diagonalisation |
| util/minsr.py | everything, `solve` also with rounding errors (Model/MinsrRounding) | choice of the device |
| util/stepper.py | everything, with aliasing of arrays in AdaptiveHeun; with infinities and NaN (Model/NanSteps); Euler and Heun with rounding errors (Model/StepRounding), AdaptiveHeun with rounding errors (Model/AdaptiveRounding); the loop around it in examples/ex2, with checkpoints and resuming (Model/Script), and the whole script with its measurements (Model/Evolve); the keyword arguments of `step` and how they reach the right-hand side (Model/Calls) | |
| util/symmetries.py | 1D and square 2D orbits, factors, selection by names and keyword arguments (Model/SymNames) | |
| util/output_manager.py | everything on an abstract HDF5 file with crash points | chunking, dtypes, text output except timings |
| util/util.py | `measure`, `ground_state_search` (with its writes to the output manager: Model/SearchFile), `init_net`; whole searches and time evolutions as programs per rank (Model/SpmdRun, Model/SpmdMinsr) | printed text |
| ../examples/ex1 | `SxOperator` (Model/CustomOp) | - |
| ../examples/ex3 | the network `MyNet` and its use in `NQS` (Model/MyNet) | the random configurations |
| ../examples/ex0, ex2, ex4 | the loops that build the Hamiltonian and the observable (Model/Ising); the search and the reference energy of ex0 (Model/SearchEx); for the rest of ex2 see util/stepper.py | plots of ex0, the rest of ex4 (timings) |
| ../examples/ex7 | the Hamiltonian, the network `Target`, the comparison of energies (Model/Fermions) | openfermion, plots; the ground state search is covered by C79 and C102 |
| ../examples/ex5, ex6 (preparation of the initial state, time evolution), ../tests/povm_test.py | `copy_dict`, output bias and kernel (Model/ProductState), the loops for the Lindbladians (Model/LindbladEx), the loops over time (Model/Dissipate) | the remaining test code |
| nets/ | CpxRBM, CpxRBM_Nospinflip, RBM (also with rounding errors: Model/RbmRounding), FFN, CNN, CpxCNN, CpxCNNSym, RNN1DGeneral, RNN2DGeneral (both also with rounding errors: Model/DirectRounding), SymNet (real coefficients also with rounding errors: Model/SymRounding), TwoNets, activation functions log_cosh (real arguments also with rounding errors), square, poly5, poly6, initializers.py, the RNN, LSTM and GRU cells and the setup that selects them | the generator behind the initial weights and the normal and orthogonal initialisers; LSTM and GRU cells follow the flax formulas (flax itself is not in /repo) |

## 4. Properties: model and proof plan

Where the code violates a property, the plan is: prove the negation with a concrete witness
(`..._violated`), and prove the part which does hold as `..._partial`, with the exact guard.

| id | model | statement / proof |
|----|-------|-------------------|
| C01 | Model/Mpi: `distributeSampling` per rank | Nat arithmetic on quotient/remainder, sum over ranks by induction |
| C02 | `distributeSampling`, `firstSampleId` with the module global `globNumSamples` as state | intervals tile: concatenation of ranges = range N |
| C03 | `globalSum`, `globalMean` on rank/device/sample lists | equality with sum of the flattened list; permutation invariance |
| C04 | `globalVariance` incl. the `[0]` device selection | false for >1 device: witness; partial for one device |
| C05 | `globalCovariance` | false: witness; partial: equals second moment, so correct (transposed) for zero mean |
| C06 | `CommTime` state machine | invariant over histories |
| C07 | per-rank collective traces, small-step scheduler | delivery for every schedule; TypeError => deadlock (violated), partial under float64 |
| C08 | device-list state machine | invariant up to reordering; `myDevice` not updated: violated, partial |
| C09 | `getBasis` (integer representation, digit loops, mask) | bijection with configurations iff `(D-1)*ceil(n/D) <= n`; witness otherwise |
| C10 | `ExactSampler.sample` with `lastNorm` state | algebra of exp/log, induction over histories |
| C11 | samplers as state transformers on psi | state equality |
| C12 | counts of `_get_samples_mcmc`/`_gen` | arithmetic; false if multipleOf does not divide numChains: witness, partial |
| C13, C14, C15 | proposers as functions of explicit draws | case analysis, involutions, counting bijections; POVM proposer violated |
| C16 | Metropolis kernel as a real matrix | detailed balance => stationarity, induction on number of steps, product chains |
| C17, C18 | `_sweep`/`_get_samples`/`_mc_init` state machine driven by draw lists | invariants |
| C19 | weight formulas | exp algebra, sums; generator with multipleOf > 1 violated |
| C20 | free key tree | freshness by prefix argument; `set_random_key` violated, partial |
| C21 | `createBatches`, `evalBatched` on lists | list induction |
| C22 | parameter tree as list of leaves, flatten/unflatten | round trips both ways |
| C23 | gradients as derivatives (Mathlib `HasFDerivAt`) in the layout of the code | chain rule |
| C24, C25 | `init_net` decision logic, NQS protocol state machine | decision table, Cauchy-Riemann; violations with witness |
| C26 | `compile` + `_get_s_primes` on integer tables | equality with matrix product in the Kronecker space; order violated, partial for distinct sites |
| C27 | same model with `fermi` flags | sign computations for all sites |
| C28 | `_find_nonzero`, `set_zero_to_zero` | sorting/compression lemma; threshold 1e-6 violated, partial |
| C29, C30 | `get_O_loc(_batched)` | list lemmas; non-logarithmic violated |
| C31 | Python call protocol of `_prod_fun`, OpStr constructor | algebra; violated for non-empty arguments, partial |
| C32 | chunked evaluation over ranks | IndexError witness; partial |
| C33 | operator cache state machine | invariant over histories |
| C34 | `get_estimator_function` | violated for non-tuple compile (unbound local), partial |
| C35 | mask broadcasting | violated for 2D, partial for 1D |
| C36, C37, C38 | Mathlib matrices | trace identities |
| C39 | registry state machine | invariant |
| C40 | `compile` on term lists | multiset/sum equality |
| C41, C42, C43 | SampledObs | finite sums over ℂ; zero weights violated |
| C44 | TDVP call as state transformer | state equality |
| C45 | loop with fuel = provable bound; spectral algebra | termination, unitarity; unbound-variable case violated |
| C46, C47 | Mathlib matrices / inner products | algebra |
| C48 | call protocol | always TypeError: violated |
| C49, C50 | steppers over an arbitrary real vector space | algebra, loop invariants; first step may exceed maxStep: violated |
| C51 | loop | induction |
| C52, C53, C54, C55 | h5 file as map from paths to lists; ops as primitive write sequences | invariants, crash prefixes; violations |
| C56, C57 | orbit matrices from index maps | group closure for all L; invariance by re-indexing |
| C58, C59 | autoregressive scan over arbitrary cell | induction over sites/lines; complex parameters violated |
| C60 | periodic padding + convolution layers | equivariance by induction over layers; CpxCNN violated |
| C61 | Complex exp/cosh | algebra |
| C62 | error formulas | violated for measure_povm, partial |
| C63 | `set_parameters` on leaf lists with reshape errors | decision of exactly when an exception is raised; silent truncation violated |
| C64 | `get_gradient_dict` splitting | slices of the gradient vector; complex non-holomorphic networks violated |
| C65 | the predefined operators | equality with the Pauli matrices; Sp and Sm exchanged: violated |
| C66 | `get_1_particle_distributions` and the named states | trace formulas |
| C67 | `select`, `tangent_kernel`, `transform` of SampledObs | matrix identities; vector-valued `linearFun` violated |
| C68 | `mean_and_grad`, `mean` with an estimator | derivative of the Born mean (`HasDerivAt`); several devices violated |
| C69 | `measure_povm` correlators | sums over sites; distance zero violated |
| C70 | `get_tdvp_equation` | algebra of weighted sums |
| C71 | MinSR `makeReal` | violated |
| C72 | MinSR call as state transformer | state equality |
| C73 | `append_h5`-like helpers of OutputManager | map and list algebra |
| C74 | CpxCNNSym | re-indexing; spin flips violated |
| C75 | chain of the sampler as a graph and as a kernel | explicit paths; harmonic functions are constant; contraction of signed measures by a column of the n-step kernel that is bounded below; parity invariant for the violation |
| C76 | checks of the constructor | decision table |
| C77 | pipeline ExactSampler → get_O_loc → measure | composition of C10, C28, C03, C62 |
| C78 | same pipeline and TDVP | constant local energy; strict positivity of weights |
| C79, C80 | same pipeline and TDVP equation, derivative of the Rayleigh quotient | positive semidefinite S, chain rule |
| C81 | `util.init_net` on a dictionary that is changed in place | reduction to C57; reuse, two networks and chains with rotations violated |
| C82 | `TwoNets`, constructor of NQS, `get_sampler_net` | exp algebra; complex phase networks violated |
| C83 | `FFN` on lists of numbers | induction over layers; sign flips propagate |
| C84 | `RBM` and `CpxRBM` on two axes | re-indexing; RBM does not flatten: violated |
| C85 | dictionary of compiled functions and static arguments of `_get_samples_mcmc` | induction over calls; `mu` and `net` are baked in: violated |
| C86 | `initializers.init_fn_args`, string comparison of release numbers | case analysis; 0.10 and later violated |
| C87 | ExactSampler with plain networks | reduction to C77; violated, with the exact condition |
| C88 | `TDVP.solve` of C45, distances of state velocities up to norm and phase (`Spec/Projection`) | completing the square in the eigenbasis; force vanishes on the kernel because distances are not negative; C45 formula |
| C89 | `TDVP.solve` of C45 in both modes, `flat_gradient_holo` of C24 | reflection K with S_imag = K S_real = S_real K, so the squares agree; the update is a function of S² times S F; simulation of the two cutoff loops; pairing by induction on the leaves |
| C90 | `RNNCellStack`, `RNNCell`, `GRUCell`, `LSTMCell` and `setup` in both dimensions, on the scans of C31/C32 | scans unrolled by induction over the sites; stack by induction over the layers; zigzag predecessor; causality by induction over the path; gates between 0 and 1 |
| C91 | name dispatch in `setup` | case analysis over all strings |
| C92 | `_get_samples_gen` on all ranks as a distribution of sample worlds (independent draws), `measure` of C62, `RNN1DGeneral.sample` of C59 | the ranks' law reduced to n independent draws; linearity of the mean, E[(sum)²] = n E[·²] for centred terms by induction; Chebyshev; C58/C59 for the Born law |
| C93 | `_sweep`, `_get_samples`, `_get_samples_mcmc` on all ranks as distributions (independent draws, transition probabilities of C16), weights of `sample`, `measure` of C62 | geometric convergence of C75 bounds sums of correlations; second moment of sums along a trajectory by induction; weighted mean minus target is a ratio of centred sums; Chebyshev; parity of the number of ones for the violation; `c93_distribution`: the distributions are those of the functions of the keys of C16/C19 for independent uniform draws (integrals over the draws) |
| C94 | `POVM.__init__` with the registry of C39 holding the matrices of C38, `POVMOperator.add`/`compile`/`_get_s_primes` of C40, `get_O_loc` of C22 | specification of many-body master equations (Spec/Lindblad); partial traces: a superoperator on listed sites acts on the reduced matrix, and outcome probabilities factor over the split of the lattice into listed and other sites; C40 sums the terms; derivative of log P |
| C95 | samplers of C10/C16, `get_O_loc` of C22, `gradients` of C41, `SampledObs` of C05, `TDVP.__call__`, `MinSR.__call__` of C44/C47 with shifted outputs | shift relations: cached `logAccProb` differ by a constant along the chain; scaled sums; linearity of the derivative; centred rows do not change, also in subsets used for cross validation |
| C96 | loop of the examples around `step` of C49/C50, evaluations with state and errors | specification: solution, Lipschitz conditions in a tube (Spec/Ode); Taylor and trapezoidal remainders by the mean value inequality; Gronwall by induction over the steps while the trajectory stays in the tube; lower bound on accepted time steps |
| C97 | `TDVP.__call__` of C44/C46 on exactly weighted samples (C79), `measure` of C77 | specification: Schrödinger equation, fidelity (Spec/Fidelity); reported error = squared distance of the velocities off the ray; derivative of the overlap bounded by the component of the velocity error orthogonal to the state; monotonicity from derivative bounds, with the square root regularised |
| C98 | `ground_state_search` of C51 with a TDVP object (C44/C45), samples of C79 | specification: energy levels, ground state with gap (Spec/Spectrum); energy and variance as weighted sums over the eigenbasis; the reported numbers are those of C77; the loop of C51 read back from its stopping condition |
| C99 | the loop of examples/ex2 with checkpoints (Model/Script), TDVP objects (C44/C45), `Euler`/`Heun`, output manager on an HDF5 file with all intermediate states | specification: what scripts record, samplers without state (Spec/Resume); well-formedness of the file as an invariant of every file operation; reproducibility of TDVP calls; bisimulation of the interrupted and the uninterrupted script |
| C100 | `measure` on whole dictionaries of Python values, with operator objects in a heap (compiled kernels, C33), any sampler; `BranchFreeOperator` as an instance (Model/MeasureAll) | specification: documented form of the dictionary, newly built operators (Spec/MeasureAll); invariant on the heap along scripts; refinement of the loops to one measurement per request |
| C101 | TDVP objects (C44/C45) with a real network, exact sampler with `logProbFactor=1`, `POVMOperator` (C94) | specification: distributions, Fisher-Rao length, rate equations, L1 distance (Spec/MasterTdvp); centred local estimators are A P / P, so that the sampled distance is the Fisher-Rao distance; Cauchy-Schwarz for averages; Groenwall in L1 for trajectories; rate matrix of the compiled kernel |
| C102 | every rank runs its own program (Model/Spmd: programs with collective operations, interleaving semantics with a scheduler); rank programs of mpi_wrapper, stats, samplers, TDVP, MinSR, steppers, measure, prefactors, checkpoints (Model/SpmdCode) | specification: returns under every schedule, hangs under every schedule (Spec/Spmd); lockstep programs always return (invariant over schedules, bounded rounds); refinement of every rank program to the all-ranks model of the other properties; a rank that ended blocks the others for ever |
| C103 | the models of C43-C47, C62, C77, C19, C09 run on two layouts | specification: permutation of all samples, up to entries without weight (Spec/Layout); all statistics are symmetric functions of the samples; MinSR: its update is the truncated pseudo-inverse of S applied to the force, for every cutoff (functions of X X† and X† X agree) |
| C104 | the models of C45, C46, C72, C92 and C93 | specification: relative error of the weights (Spec/NearBorn); weights with relative error eps give all variances with relative error eps, hence the distances of all velocities at once; energies by polarisation and scaling; probabilities by Chebyshev's inequality for every configuration |
| C105 | ground_state_search and the loop of ex2/ex5 as programs of one rank, on top of C102 | specification: equal results on all ranks, and the computation of a single process (adapt, oneStep, evolution); invariant: parameters agree, stored equations agree; induction on the passes; the recorded means and the data of TDVP are those of all ranks' weighted samples |
| C106 | the proposers of C13-C15 with their (equally likely) draws | specification: set of flipped sites, probability of an event (Spec/Proposals); the flipped sites are determined by the two configurations, so that the draws leading to an event can be listed; for zero magnetisation bijection between drawn ranks and pairs of sites (C14) |
| C107 | eulerLoop, heunLoop, ahLoop (C96), TDVP calls (C97, C104) | specification: exact evolution and distance (Spec/Fidelity), smooth networks and Hamiltonians (Spec/Smooth); along a straight step the part of the velocity off the ray changes at most at an explicit rate, C97 on every step, sum over the steps; Heun: C96 and the same estimate along the segment to the exact TDVP trajectory |
| C108 | ground_state_search (C51), TDVP calls (C97, C104) | specification: energy, variance and speed of the state (energyAt, varianceAt, speedAt: matrix elements), smooth networks (Spec/Smooth); second-order expansion of the energy along a straight step (derivative of the normalised state is Lipschitz), rate of change as difference of distances between states, C88 and C104 for each call, sum over the steps of C51 |
| C109 | ground_state_search (C51, C108) | specification: ground state and gap (Spec/Spectrum), distance (Spec/Fidelity), energy and smooth networks as in C108; the variance of a state is at least the product of its distances in energy from the ground and the excited level (expansion in eigenvectors), C108 for every step, induction over the steps with the invariant that the energy stays below e1-g, C98 for the distance |
| C110 | ground_state_search with a MinSR object (minsrApi), set_parameters with complex vectors (setParametersC) | specification: energy, variance, speed, ground state as in C108 and C109, Cauchy-Riemann equations for the leaves; for holomorphic networks the complex update amounts to twice its real part, which moves the samples in the same way (pairing of C89), Pythagoras for the pseudo-inverse gives the rate for any cutoff, C47 optimality without cutoff; induction over the steps of C51; then as C108 and C109. Witnesses for real and for antiholomorphic networks |
| C111 | composition of SymNet, get_orbit_1D/2D, ExactSampler.sample, BranchFreeOperator, measure | specification: configurations and operator dictionaries moved by a permutation of the sites, with spins exchanged if the group element flips them; each group element acts that way (signed permutations of C56); the matrix of a moved string is the reindexed matrix (algebra isomorphism), expectation value and spread are invariant under reindexing if the wave function changes by a factor only (character of C57); C77 for both operators. Spin flips negate products with an odd number of Sy and Sz |
| C112 | TDVP.__call__ at any stage (C44), Euler, Heun, AdaptiveHeun loops (C96) | specification: energy, variance, speed, smooth networks as in C108, solutions as in C96; the returned velocities make the sampled rate of the energy vanish (pseudo-inverse of an imaginary antisymmetric equation), so that the exact rate is bounded by the sampling error (C104); second-order bound for each Euler step (C108), induction over the steps; chain rule and vanishing derivative for the flow, C96 and C97 for Heun and AdaptiveHeun |
| C113 | Model/InitWeights: `cplxInit`, `cplxVarianceScaling` as functions of the draws, fresh networks on top of Model/Rbm | specification: draws in [0,1), Born probabilities; modulus of the hyperbolic cosine in a square around zero, product over the hidden units (C61), pi/2 between 1.57 and 1.58; witness from 158 sites on |
| C114 | Model/InitWeights: `kernelEntry`, the initialisers selected by `setup` of the recurrent networks | proportionality of every entry; square root of the variance; witnesses; softmax of zeros for initScale=0 |
| C115 | Model/SDot: `S_dot` and `norm_fun` of the examples, on Model/Tdvp and Model/SpmdRun | attributes after a call (C46), quadratic form of the covariance as a variance; `offRay` and `fisherLength` of Spec/Projection and Spec/MasterTdvp; induction over the attempts of AdaptiveHeun |
| C116 | Model/ProductState: floating point numbers with infinities and NaN, `log_softmax` and `nan_to_num` of the recurrent networks on them, nested parameter dictionaries, `_param_unflatten`, `get_parameters`, `copy_dict`, the assignments of the examples | specification: `oneSpin`, `productState`, Born rule of Spec/Povm; induction over nested dictionaries (sorted keys, filling, in-place changes); log_softmax is Lipschitz with constant 2; averages over symmetry operations; C69, C62, C101 for measurements; refinement to the recurrent networks of C58 for finite numbers (`rnn1dD_fin`, `rnn2dD_fin`) |
| C117 | Model/Fermions: the strings of the Hubbard model and the network of examples/ex7; operators of Model/BranchFree, exact sampling and measurement as in C77 | specification: Spec/Fock, creation operators with the documented sign; the code's operators are conjugated to them by the sign (-1)^(n(n-1)/2) of reversing the order of the modes; charges of products by induction; Hubbard model as a sum over sites; binary digits for the network; the error of the energy is of second order in the error of the eigenvector |
| C118 | eulerLoop, heunLoop, ahLoop (C96), TDVP calls with rhsPrefactor=-1 (C101), compiled POVM operators (C94), measure_povm (C62, C69) | specification: rate equation, growth of distances, smooth log-probabilities, samples of relative error eps (Spec/DissipativeRuns); Groenwall inequality for sum\|P-q\| with the logarithmic norm of the rate matrix; along a straight step velocity and distribution change at explicit rates; Heun: C96; observables: C69 and bounds on the POVM observables |
| C119 | Model/Nodes: logarithms of amplitudes may be -inf (SymNet, C56); exact sampling, acceptance and chains, local estimators with padding, `measure`; a number that is not finite is not told apart further | zeros from the projection formula of C56; Born weights as in C77; a sampled zero makes its local value non-finite, and one non-finite value all means; chains by induction over the updates |
| C120 | Model/FloatRange: exact sampler with its stored normalisation, MCMC weights and acceptance, avgFun_Coefficients_Sep, local estimators over numbers with a largest and a smallest positive value and the IEEE rules for inf and NaN; exact in between | invariant over the calls: the stored logarithm is between the last peak and log K above it; error of dropped terms; once infinite or NaN, always (induction); negations for any range, with double precision cases |
| C121 | Model/Proposers, Model/McmcSampling, Model/MCSampler, Model/Pipeline; Spec/ZeroMag: sectors of configurations | TDVP in a sector: the call is the same as one for the operator and network on the subtype of the sector; convergence from C93 on the balanced configurations, local values summed over the sector; sharp operators: all deviations vanish on every device; default start: the excess of spins changes by at most 2 per update (induction) |
| C122 | `NQS` with separate attributes and a data type for every parameter array; `init_net` in the order of its assignments | invariant `initialized = false` over every history for mixed data types; case analysis of `init_net`; simulation of the object in double precision by the model of `Model.Vqs` |
| C123 | the methods of `SampledObs` as in C41-C43, C67; a chain is a sequence of calls | induction over the chain: every call turns the object of some samples into the object of the samples the call stands for |
| C124 | how Python binds positional and keyword arguments to a signature; the signatures of the constructors, of `step` and of the right-hand sides; `**rhsArgs` handed from `step` to the right-hand side | induction over the keyword list: accepted exactly if it fits, with the values given; composition for the three integrators; ignored names and refused example calls as counterexamples |
| C125 | the reductions with a rounding function after every operation; results are relations: all values some order of the additions gives | induction over the additions: the result is the exact sum of slightly changed numbers; nested sums absorb the errors of the outer ones; Cauchy-Schwarz for the variance; in double precision by an explicit rounding function |
| C126 | `ground_state_search` with its calls of `write_observables(n, **obs)` (keyword binding of C124, output manager of C21), measure as in C100, TDVP object as in C51 | simulation: the run with a file is the run of C51 plus the writes of its log (induction over the loop, both directions), file contents by C21; C51 and C100 for what the rows are, C108 for the energies; names that collide as counterexamples |
| C127 | the script ex2 from its first measurement on: `get_parameters`, `AdaptiveHeun.step` on the TDVP object, `set_parameters`, `measure`, rows of `data` (Model/Evolve) | simulation: the loop as a sequence of rows by induction; C49/C96 per step with the velocities of the actual calls, C97 and C112 for what the rows are |
| C128 | parameter trees as nested dictionaries with insertion order; `tree_flatten` (sorted keys), `tree_structure`, `tree_unflatten`; `NQS` with a FrozenDict or a plain dictionary (Model/ParamDict) | recursion over trees: sorting keeps look-ups, paths come out strictly increasing; simulation of the list-of-leaves model over histories; plain dictionaries as counterexample after every history |
| C129 | local operators with any integer as index; JAX indexing: negative from the end, clamped reading, skipped writing (Model/SiteIndex) | refinement: every such operator acts like one on a site of the lattice, then C26 |
| C130 | `POVMOperator.compile` and `_get_s_primes` with any integers as sites (Model/PovmSites) | simulation of Model/PovmOperator (C40) by induction over the loops; the loops never see a term with a negative first site |
| C131 | the integrators and the loop of ex2 on arrays of floating point numbers with infinities and NaN (Model/NanSteps); `jnp.linalg.norm` | invariants of the loop over attempts and of the loop over steps, for right-hand sides that record what they return; NaN and finiteness propagate through the operations |
| C132 | `orbit1DCall`, `orbit2DCall` (names as strings, factors as keyword arguments), `descrOf` (the keys of a description), `readDescr` (nested dictionaries) | the selected generators are those of C56 / C81; counterexamples for unknown names, rotations on chains, the value `False` and names in the dictionary of the network |
| C133 | `EulerStepRnd`, `HeunStepRnd` (relations: every result rounded, products possibly fused), `TimeLoop` (the loop of ex2, ex5 and the tests) | a rounded step is an exact step with a perturbed right-hand side, so the induction of C96 applies; induction over passes for the clock; counterexamples in double precision |
| C134 | `performMcUpdateRnd` (`perform_mc_update` with rounded logarithms, rounded difference, the machine's exponential function and 52-bit uniform numbers), `roundedStep`, `gridUniform`, `logAccRnd`, `mcInitRnd` | the rounded decision is a decision with another threshold, whose acceptance probability is near the exact one; products of kernels by a telescoping sum; perturbation of a geometrically convergent chain in blocks of N updates |
| C135 | `OLocR` (`_get_O_loc` with rounded complex differences, products and sums in any order, `CSubR`, `CMulR`, `OLocTermR`), `MeasuredR` (`measure`: local estimators, then `global_mean`) | relative errors of complex numbers compose; the sum is a `global_mean` with weights one (C125); variance at eigenstates from the bound of C125 |
| C136 | `Machine` (rounding, exponential, logarithm, sums in some order, draws), `logSoftmaxM`, `logCoeffsToLogProbsM`, `rnn1dM`, `rnn1dSampleM`, `rnn2dM`, `rnn2dSampleM`, `genSample1DM`, `genSample2DM` | errors of `log_softmax`; a relation between random results that is stable under `bind` (means of functions that agree on related outcomes), by induction over the sites and rows |
| C137 | `SampledObsR` (`SampledObs`: means by `global_mean`, `sqrt(w) * (d - m)` with rounded operations), `CovarR` (sums of real products in any order), `VarR`, `TdvpEquationR` (`get_tdvp_equation`: products with `rhsPrefactor`, real or imaginary part, diagonal shift) | three relative errors per prepared number; per-sample bounds with a shifted mean added up by Cauchy's inequality; the products of a device are a `global_mean` (C125) with twice as many terms; solutions compared through the quadratic form of the exact matrix |
| C138 | `isingOperator`, `magnetOperator` (the loops of examples/ex0, ex2, ex4: `scal_opstr`, `add`), on top of `opKernel`, `branchFreeClass` | the loop yields an explicit list of strings; their prefactors are written in order; C26/C65 give the matrix; the entries of merged diagonal strings are the classical energies; C77 for measurements; C32 for several ranks |
| C139 | `CDotR` (complex dot products as sums of real products in any order), `TangentKernelR`, `MinsrSolveR` (`tangent_kernel`, `solve`, products from left to right, `pinv` an arbitrary function) on prepared data `SampledObsR` of C137 | enclosures (value, size, upper bound) that are stable under conjugation, products and dot products; the residual of the exact equation splits into those of `pinv`, the kernel and the update |
| C140 | arrays with shapes (`IntArr`), `getSPrimesArr`, `getOLocArr` (`get_s_primes`, `get_O_loc` for an arbitrary function returned by `compile()`, whose result is indexed along its leading axis), `sxCompile` (`SxOperator` of ex1) | refinement to the list model of C28 for functions with the documented interface; the example by computation of the shapes for all sites, lengths and samples |
| C141 | `addTerm`, `chainLindbladian` (ex5), `squareLindbladian` (ex6) in terms of `PovmOps.add` of C94 | creating and adding dictionaries alternately equals adding prepared dictionaries (`add` commutes with further dictionaries), then C94; sums over loops; traces of the SIC elements for the uniform distribution |
| C142 | `metricBody`, `metricStep` (`AdaptiveHeun.step` with a norm that reads what the right-hand side stored), `dissPass`, `dissScript` (loops of ex5 and ex6) | induction on attempts and passes; bounded velocities and a quadratic norm bound the deviation, hence the time steps from below; one-step error of C96 for equations that do not depend on time; `c115_call` for the sign of the norm |
| C143 | `myNet`, `myNetInit`, `myNetEval` (the network of examples/ex3, its parameters as leaves of the object of C122, evaluation in batches) | amplitudes as in C73; invariant over histories of an object with real arrays: all arrays stay real, so all coefficients are non-negative; the comment in the script is refuted by a target with two signs |
| C144 | `energySinglePMode`, `npArange`, `isingMomenta`, `groundStateEnergyPerSite`, `searchRow`, `searchPass`, `searchScript` (ex0), on top of `tdvpApi` of C51 and the Hamiltonian of C138 | induction on the steps with the history of psi as invariant; reported numbers as in C98; for the reference energy: a telescoping sum of cosines, trial states (all spins up, all spins along the field) and the bound of C138; counterexample: an eigenvector of three spins |
| C145 | `ElemFuns`, `DenseR`, `RealRbmR` (rbm.py), `LogCoshR` (activation_functions.py) as relations over the roundings of C125 | error of dot products as in C125; log cosh and log(1+exp) are 1-Lipschitz; logarithm of a relative error; sums of errors; `c145_chains` inserts the bound into C134 |
| C146 | `AhVals`, `AhAttemptRnd`, `FeRnd`, `NextDtRnd`, `AhPassRnd`, `AhLoopRnd`, `AhStepRnd` (stepper.py), `AhEvolutionRnd`, `AhTimeStep` (ex2), relations over the roundings of C125 | errors of each operation in units of u times its operands, propagated through the five stages by the Lipschitz constant; every rejection shrinks the step by 0.95, small steps are accepted; induction on the rejections and on the steps, with the error of exact Heun steps of C96 |
| C147 | `LogSumExpR`, `MeanLogR`, `MeanSepR`, `SymNetR` (sym_wrapper.py) as relations over the roundings of C125 and the elementary functions of C145 | relative errors of positive terms as errors of their logarithms, which sums keep; logarithm of a sum is 1-Lipschitz in the coefficients; the exact model of C57 is the limit |

## 5. Where the code disagrees with the properties

Each disagreement is a theorem about the model with a concrete witness. The `_partial` theorems of the same
property state the guard under which the property does hold.

| id | property | theorems | disagreement |
|----|----------|----------|--------------|
| C04 | global_variance is the weighted variance over all ranks and devices | `c04_violated` | the code only counts device 0 of every rank: proved for one device per rank, counterexample for two devices; for every layout the exact value returned is proved, that it never exceeds the variance, and exactly when it is the variance |
| C05 | global_covariance is the covariance matrix | `c05_violated` | the code does not subtract the means and returns the transpose: proved for zero-mean data, counterexample otherwise; for every input the exact value returned is proved and exactly when it is the covariance |
| C07 | bcast_unknown_size delivers the root's array to every rank | `c07_violated_deadlock` | proved for float64 arrays under every schedule; for other dtypes the other ranks deadlock (proved) |
| C08 | device reconfiguration: compiled reductions always match the current device list | `c08_violated_reorder`, `c08_violated_placement` | kernels match the device list only up to order; result placement uses a stale device |
| C09 | ExactSampler enumerates every basis configuration exactly once | `c09_violated` | every configuration is covered for all ranks/devices; uniqueness holds exactly when (D-1)*ceil(n_r/D) <= n_r on every rank (iff proved), counterexample N=3 spins on 7 devices |
| C102 | MPI ranks neither hang nor race | `c102_violated_bcast`, `c102_violated_prefactors`, `c102_violated_checkpoint`, `c102_violated_output` | Holds whenever the functions succeed on the data of all ranks (for TDVP with the samplers of the package this is proved from the fact that every rank has a device). Disagreements (proved): bcast_unknown_size of an array that is not float64, prefactors of operators with at least 50 strings, get_network_checkpoint of a file that rank 0 cannot read, and every write that fails on rank 0, leave the other ranks waiting forever. Networks and operators are evaluated locally; MPI calls are synchronising collectives (a rank leaves when all have entered). |
| C103 | Results do not depend on how samples are distributed over ranks and devices | `c103_variance_violated` | The same variance and error of measure are proved for one device per rank; with several devices per rank they depend on the layout (c103_variance_violated, C04). The two cross-validation numbers of TDVP are computed from subsets of every device and are excluded. Signal-to-noise ratios are the same for the same number of entries; with padding they are NaN (and unused with exact sampling). ExactSampler: even splits (other splits: C09). In exact arithmetic. |
| C104 | TDVP steps from finitely many samples are right up to the sampling error |  | (1)-(3) are proved in full for finite configuration spaces in exact arithmetic, (1) with the hypotheses of C88 (makeReal='real', no diagonal shift, spectral gap). The probability for Markov chains needs the condition of C93 (not periodic), since the claim is false otherwise (C93). |
| C106 | The spin proposers treat all sites alike and reflect at the announced rate | `c106_rate_violated` | The laws of the proposals are proved; but both proposers reflect the configuration in one of five updates, not one of thirty (c106_rate_violated). For Z2 three or more sites, for zero magnetisation any number but four: otherwise a reflection and a move can have the same result. Random integers are idealised as uniform. |
| C11 | sampling with foreign parameters leaves the wave function unchanged | `c11_exception_leaves_foreign_parameters` | for calls that return; an exception raised by the network evaluation leaves psi at P (c11_exception_leaves_foreign_parameters) |
| C110 | ground_state_search with MinSR lowers the energy and converges | `c110_real_violated`, `c110_nonholomorphic_violated` | Proved for networks that are holomorphic in complex parameters, in exact arithmetic, with samples of relative error eps (0: exact) and the sampling part of the call as in C79. A real network gets complex parameters (c110_real_violated). For a complex network that is not holomorphic the steps are as stated, but they need not lower the energy: the real and imaginary parts of the update can cancel so that the search never moves (c110_nonholomorphic_violated). |
| C111 | Measurements respect the symmetries the network was symmetrised with | `c111_fermionic_violated` | composition of C57 (amplitudes of symmetrised networks) with C77 (exact measurements); operators without fermionic sign strings (the restriction is needed: c111_fermionic_violated has a translation-invariant network for which a hopping term and its translation are measured as 1/2 and 0), whose matrix elements are above the threshold of the operator, amplitudes that do not vanish, even split of the basis (C09); exact arithmetic |
| C113 | Initial complex Boltzmann machines are finite and nearly uniform | `c113_large_violated` | exact arithmetic; the formulas of jax.nn.initializers.uniform are trusted. c113_large_violated shows that the limit of 157 sites is sharp. |
| C114 | initScale scales the initial parameters | `c114_factor_violated`, `c114_input_violated`, `c114_complex_violated` | For cell="RNN". With real parameters the kernels scale with the square root of initScale (it is the scale of a variance); the input layer on chains does not depend on it because the stack is created without initFun, and with complex parameters no layer does (all proved). The formulas of jax.nn.initializers.variance_scaling are trusted. |
| C116 | Preparing product states | `c116_first_outcome_violated`, `c116_z_down_violated`, `c116_examples_violated` | Proved if the first outcome does not have probability zero in the state, for finite kernels and any cells; if another one has probability zero the network is not normalised but its distribution is that of the product state up to exp(-1.7e308/logProbFactor) per site (c116_other_outcome_chain, c116_other_outcome_lattice). If the first outcome has probability zero (with the default angles: z_down), the biases are infinite, log_softmax returns NaN, which the network replaces by -35: it returns the same number for all outcomes and the measured Z is 0 instead of -1 (c116_first_outcome_violated, c116_z_down_violated). The examples ex5 and ex6 look for the output layer at the top level of the parameters, where a network from init_net has only the key net: KeyError (c116_examples_violated; the tests of the repository use the right path). Finite numbers are exact and never overflow; infinities and NaN follow IEEE rules. Measurements with one device per rank; distance zero is excluded (C69). |
| C117 | Fermionic observables are expectation values in Fock space | `c117_ranks_violated`, `c117_current_violated`, `c117_pairing_violated` | The matrix elements are those of Fock space for every product which conserves the number of particles; measurements are right for real coefficients. The operator applied is the transpose, so for imaginary coefficients the result has the wrong sign: the current between two modes is measured as minus the current in every state (c117_current_violated). The sign of the code counts the modes after j, not those before j as documented; this changes the sign of products which change the number of particles by two (c117_pairing_violated). With eight or more sites the Hamiltonian cannot be evaluated on two or more ranks: IndexError (c117_ranks_violated, see C32). Coefficients are integer multiples of a number above the threshold 1e-6 of the code (other ones: C28); exact arithmetic. |
| C118 | The errors reported during a dissipative run bound the distance from the master equation |  | In exact arithmetic, sampling part of the call as in C79. Heun and AdaptiveHeun under the conditions of C96. Measurements with exactly weighted samples and one device per rank; not for the correlator at distance zero, which measure_povm gets wrong (c69_zero_distance_violated). |
| C119 | Wave functions with zeros are sampled and measured correctly | `c119_exact_violated` | The exact sampler gives configurations on which the wave function vanishes the right weight zero, but they stay in the sample and their local values are infinite or NaN, so measure reports infinities or NaN for every wave function with a zero on which the operator has an element above the threshold (c119_exact_violated). Right if no sample is a zero of the wave function, as in Markov chains that have left the zeros they may have started on (c119_never_enters, c119_leaves, c119_mean_partial). Infinite and NaN are not told apart; finite numbers are exact. |
| C12 | MCSampler returns at least the requested number of samples and reports the true number | `c12_mcmc_violated`, `c12_mcmc_violated_witness`, `c12_direct_violated` | holds iff multipleOf divides numChains (Markov chains) resp. multipleOf = 1 (direct); otherwise too few samples, proved |
| C120 | Large and small amplitudes: the limited range of floating point numbers | `c120_overflow_violated`, `c120_underflow_violated`, `c120_normalisation_violated`, `c120_mc_zero_violated`, `c120_mc_overflow_violated`, `c120_nan_stuck_violated`, `c120_sep_violated`, `c120_padding_violated` | Right: decisions of Markov chains, weights of their samples for the default mu, and histories in which the largest amplitude changes by a moderate factor from call to call of the exact sampler (a factor e^325 with the default logProbFactor; the total change is unlimited). The exact sampler divides by the normalisation of the previous call: one larger jump makes this call return NaN, and every later one too, since the stored normalisation is infinite or NaN from then on; in particular every state has a normalisation with which a new sampler returns NaN. avgFun_Coefficients_Sep exponentiates without subtracting the largest logarithm. Padding entries of local estimators (matrix element zero) are multiplied with a ratio that may be infinite, so that a local value is NaN or not depending on the other samples in the batch. Rounding between the smallest and the largest number is not modelled. |
| C121 | Sampling at zero magnetisation | `c121_leaving_violated`, `c121_default_start_violated`, `c121_stuck_violated` | Right for operators that keep the magnetisation and balanced initial states. For other operators the estimate contains matrix elements to configurations outside the sector: Sx is reported as 1 in the uniform state, where it is 0 in the sector. The default initial state (all spins down) is not in the sector: no sample is before half as many updates as there are sites, and the chain never leaves a state whose neighbours have small weights. |
| C122 | Data types of the parameters are checked once and then kept | `c122_refused_violated`, `c122_half_violated`, `c122_single_update_violated` | Proved: refusal of mixed data types after every history; acceptance exactly for one non-integer data type; agreement of the object with the model of C11, C22, C25, C63 in double precision. Disagreements proved: a refused network can be sampled afterwards; real networks in half precision are treated as complex; update_parameters with a double precision vector raises TypeError on single precision networks. |
| C124 | Arguments of constructors and time steps | `c124_unknown_violated`, `c124_examples_violated` | (1)-(3) proved. (4) is false: step passes all names on and TDVP and MinSR ignore those they do not know, so dt is ignored by Euler and AdaptiveHeun, normFunction by Euler and Heun (tests/povm_test.py passes it to Heun), and misspelt names by all. (5) is false: ex0, ex4, ex5 and ex6 use the argument svdTol that TDVP does not have. |
| C125 | Rounding errors of sums, means, variances and weights | `c125_bitwise_violated` | No overflow, and no underflow of products (C120 is about these). c125_exact: without rounding errors this is the exact model of C03. c125_bitwise_violated shows that the results of two layouts do differ. |
| C126 | The records of a ground state search | `c126_time_violated`, `c126_times_violated` | Proved for names of observables other than time, self and times (and without slashes): c126_series for every optimiser, c126_expectations and c126_energies for the TDVP object in exact arithmetic with exactly weighted samples for the records (c126_measure: exact sampler) and samples of relative error eps for the steps. An observable called time or self makes the search raise TypeError at its first record, because the names become keyword arguments of write_observables; one called times collides with the dataset of the times. |
| C128 | Parameters as nested dictionaries | `c128_params_violated`, `c128_structure_violated` | Everything except the last sentence is proved. psi.set_parameters(psi.params) raises TypeError after every history: since flax 0.7 (setup.py asks for at least this version) parameters are plain dictionaries, and set_parameters recognises a FrozenDict only. It works after freezing them, or by assigning to psi.params (c128_params_partial). Dictionaries of a wrong structure are accepted: c128_structure_violated. c128_leaves: the model of C11, C22, C25 and C63, which keeps the list of leaves only, is right for nested dictionaries. |
| C129 | Site indices of operators name sites | `c129_beyond_violated`, `c129_open_chain_violated` | Proved for indices -N <= idx < N. Other indices raise nothing: reading clamps them, writing skips them, so Sx(N) acts as the identity and Sz(N) as Sz(N-1); a Hamiltonian with a forgotten '% L' is that of the open chain plus a constant. c129_computed says what is computed for any indices. |
| C13 | update proposals stay in the configuration space | `c13_povm_violated` | propose_POVM_outcome leaves {0,..,3} (operator precedence), proved |
| C130 | Sites of the terms of a POVM operator | `c130_dropped_violated`, `c130_beyond_violated` | Proved for sites 0, ..., N-1. A term whose first site is negative is dropped silently (the loop in compile runs over first sites 0, ..., max_site), although a negative index counts from the end in every other position; if all terms are such, using the operator raises TypeError. A site beyond the lattice is not refused: reading clamps it, writing skips it. |
| C131 | An integration step never goes on with failed evaluations | `c131_accepted_violated`, `c131_unchecked_violated`, `c131_dead_violated`, `c131_run_violated`, `c131_fixed_violated` | Proved if the time step of the integrator is a number after the step (the evolution). But an attempt with a NaN in any evaluation is accepted whatever the tolerance (NaN < 1 is false), the time step becomes NaN, and the next step makes all parameters NaN even if the right-hand side has recovered; a loop `while t < tmax` then ends without an exception before tmax. TDVP returns such NaN (c45_dead_parameter_violated). An infinite deviation is rejected (c131_overflow). Finite numbers are exact. |
| C132 | Symmetries are selected by name | `c132_unknown_violated`, `c132_rotation_violated`, `c132_false_violated`, `c132_false_witness_violated`, `c132_nested_violated`, `c132_nested_lattice_violated` | Right for correctly spelt names. Disagreements (proved): names that are not known, among them the documented name rotation on a chain, are silently ignored, and rotation_factor raises TypeError on a chain; in a description the value False at a symmetry does the same as True. Descriptions with factors are treated for complex networks (real ones: C81). Symmetries named in the dictionary of the network, as in ex5 and ex6, are ignored (c132_nested_violated, c132_nested_lattice_violated). |
| C133 | Integration with rounding errors | `c133_stuck_violated`, `c133_extra_pass_violated` | Errors and clock proved for every run. The number of passes is the expected one if tmax is not within rounding errors of a multiple of the time step, and at most one off as long as 2 (N + 2)^2 u <= 1. Disagreements (proved): in double precision, steps of 0.69 until 3.45 = 5 * 0.69 make six passes; if the time step is below half of the spacing of floating point numbers at the present time, the time stands still and the loop never ends. No overflow or underflow; the adaptive integrator is not included. |
| C134 | Rounding errors of Markov chains | `c134_rare_violated` | Proved for every arithmetic and every number of updates. With propose_spin_flip the target distribution must not be uniform, as in exact arithmetic (C75). The errors are absolute: a configuration whose weight is below 2^-52 of that of its neighbours is visited too often, because the uniform number is zero with probability 2^-52 (c134_rare_violated). |
| C138 | The Ising Hamiltonians of the examples | `c138_ranks_violated` | Missing: two or more ranks with 50 or more operator strings (25 spins, 17 with the longitudinal field), where evaluation raises an IndexError (c138_ranks_violated, a consequence of C32; the benchmark script has 100 strings), and matrix elements that are not zero but at most 1e-6, which the code drops (C24); c138_integer shows that without longitudinal field only g itself can be affected. |
| C14 | update proposals are symmetric | `c14_povm_violated`, `c14_povm_never_returns` | propose_POVM_outcome is never symmetric, proved |
| C140 | Operators defined by users | `c140_removed_violated`, `c140_handed_violated`, `c140_local_violated`, `c140_lattice_violated` | Proved for every function with the documented interface (c140_interface). But the example in the documentation has not this interface: it uses jax.ops.index_update, which the required versions of JAX do not have (c140_removed_violated); its compile() returns one configuration instead of a list, so that get_s_primes returns the first spin of each flipped configuration (c140_handed_violated) and networks for the chain raise an exception (c140_local_violated); on lattices with two axes it raises ValueError (c140_lattice_violated). With one more axis it is right (c140_repaired). |
| C143 | The user-defined network of examples/ex3 | `c143_complex_violated` | The form of the amplitudes is proved for all complex parameters; that the network is a complex RBM, as the script says, is refuted (c143_complex_violated): for a target with amplitudes 1 and -1/2 no history of real vectors gives a proportional state. That Dense has a zero bias and parameters of single precision by default is flax's convention (flax is not in /repo). |
| C144 | The ground state search of examples/ex0 | `c144_reference_violated` | Rows and energies are proved for all runs that end (with NaN updates the model stops); as written the script stops before the loop, because TDVP has no argument svdTol (C124). The reference energy differs from the ground state energy per site by at most min(1, \|g\|) for every chain of at least two sites (c144_reference_partial); equality is false for odd chains with a positive field (c144_reference_violated: three sites, field 1, energies -4 and -2 sqrt 3), and for the other cases it is not proved (it needs the diagonalisation by free fermions). |
| C19 | sample weights turn the sampled distribution into the Born distribution | `c19_direct_violated` | direct sampling weights sum to 1/multipleOf, proved |
| C20 | no random key is consumed twice | `c20_violated` | set_random_key gives all ranks the same keys, proved |
| C23 | gradient components are the derivatives along the entries of the parameter vector | `c23_probe_violated` | each mode returns the gradient for the networks it is meant for; the mode is chosen from one probe configuration, which can choose wrongly (proved) |
| C24 | gradient mode selection matches the parameter vector | `c24_length_violated` | real network with vanishing gradient at the probe point gets gradients of twice the length (proved) |
| C25 | using or setting parameters before initialisation is reported | `c25_update_before_init_violated` | update_parameters before initialisation raises instead of setting deltaP (proved) |
| C26 | operator strings: returned matrix elements are those of the ordered operator product | `c26_violated` | strings of commuting factors; the code multiplies the factors of a string in reversed order, proved for all operators, so (Sx(0),Sy(0)) gives -iZ (proved) |
| C28 | dropping vanishing matrix elements does not change the operator | `c28_violated` | elements in (0,1e-6] are dropped (proved); the error of the local estimator this causes is bounded for every operator |
| C29 | local estimators do not depend on the evaluation batch size | `c29_violated` | logarithmic networks; for logarithmic == False the remainder batch differs (proved) |
| C30 | local estimator of a non-logarithmic wave function | `c30_violated_default`, `c30_violated_batched` | only if the caller passes log psi(s) and does not batch; the default call is wrong (proved) |
| C31 | operator-string algebra | `c31_violated` | a string with two prefactors raises TypeError when evaluated with arguments (proved) |
| C32 | prefactor evaluation is independent of the number of MPI processes | `c32_violated` | correct on one rank or with gaps at chunk boundaries; IndexError for every operator with prefactors on all strings on two or more ranks; the exact condition for a right result is proved (else IndexError) |
| C33 | operators are recompiled whenever needed | `c33_violated` | results are never computed from stale kernels; after an exception in the argument preprocessing later evaluations fail (proved) |
| C34 | get_estimator_function agrees with get_O_loc | `c34_violated` | operators whose compile() returns one function raise (proved) |
| C35 | branch-free operators accept configurations of every shape | `c35_violated`, `c35_column_violated` | two-dimensional configurations raise a broadcasting error; with shape (N,1) fermionic operators lose their sign (both proved) |
| C39 | POVM operator registry | `c39_direct_insert_lost` | also shown: operators written directly into povm.operators are lost at the next add (c39_direct_insert_lost) |
| C40 | POVMOperator compilation preserves the operator | `c40_shared_dictionary_loses_term` | every history in which no operator dictionary is added to two operators; otherwise identifiers can collide and compile drops a term (proved) |
| C43 | covar_data, covar_var and transform are consistent with covar | `c43_zero_weight_violated` | positive weights (normalised for covar_var); one sample of zero weight makes the results NaN (proved) |
| C44 | TDVP leaves psi unchanged and cross-validation does not alter the result | `c44_exception_leaves_parameters` | an exception inside a call leaves psi with the parameters of the call (proved, not part of the claim) |
| C45 | the TDVP pseudo-inverse loop terminates with a truthful residual | `c45_unbound_violated`, `c45_dead_parameter_violated` | UnboundLocalError for pinvTol>=1 or pinvCutoff>=0.01, NaN update for a parameter with constant gradient under Monte Carlo (both proved); residual is an upper bound for the returned real part, exact for the exact sampler |
| C47 | MinSR solves the stochastic-reconfiguration equation | `c47_truncation_violated` | For every cutoff the update is the truncated pseudo-inverse of S applied to -F (c47_truncated). S x = -F holds if the cutoff removes no non-zero eigenvalue (always for pinvTol=0); for every positive cutoff a data set on which it fails is constructed |
| C48 | get_sr_equation returns the SR equation | `c48_violated` | get_sr_equation raises TypeError for every input (proved); the equation itself is c70_equation with prefactor 1 |
| C49 | AdaptiveHeun returns an accepted, accurately described step | `c49_unbounded_violated`, `c49_first_step_violated`, `c49_alias_violated` | holds for right-hand sides that return new arrays and for first time steps <= maxStep; both exceptions are proved violations. Termination is proved for right-hand sides that are bounded close to the present value, in particular continuous ones, with norms or squared norms; without a bound it is false (proved) |
| C51 | ground_state_search terminates and obeys its stopping rule | `c51_tolerance_violated`, `c51_nan_violated` | proved except for the stopping rule at varianceTol >= 1 (no step is done) and NaN variances (the search stops), both proved violations |
| C52 | OutputManager.write_observables appends and keeps series aligned | `c52_late_violated`, `c52_exception_violated`, `c52_crash_violated`, `c52_shape_violated`, `c52_times_violated` | holds for histories in which every call passes the observable, with arrays of a fixed shape under names without slashes; observables first passed later, exceptions, crashes inside a call, shrinking arrays and metadata called 'times' are proved violations |
| C53 | network checkpoints round-trip | `c53_crash_violated`, `c53_after_crash_violated`, `c53_negative_violated` | holds for natural histories; after a crash only idx=i of complete checkpoints is right, the default can return weights of another time (proved violation); negative times are ignored (proved violation) |
| C54 | set_group selects the group for later writes | `c54_root_violated`, `c54_dataset_violated` | set_group('/') does not return to the root group, write_dataset and write_error_data ignore the group (proved violations) |
| C55 | timing statistics | `c55_stop_violated`, `c55_double_violated` | total proved for alternating start/stop; a stop without start and a second stop are proved violations; the printed values are proved for all histories |
| C57 | symmetrised networks are invariant | `c57_real_violated`, `c57_other_violated` | invariance is proved for all averaging functions; the transformation with a character holds for complex networks with the default averaging, but is false for real-valued networks (NaN) and for the other averaging functions (they ignore the factors) |
| C58 | recurrent networks are normalised | `c58_complex_violated` | Proved for every cell, real parameters, size, local dimension and factor. False for complex parameters (realValuedParams=False): witness with total 3. |
| C59 | direct sampling draws from the network's own distribution | `c59_complex_violated`, `c59_sym_povm_violated`, `c59_sym_default_violated` | Proved for real parameters; for symmetrised networks with separate averaging and logProbFactor 1/2 (spin flips need two local states). False for complex parameters, for separate averaging with logProbFactor 1, and for the default averaging. |
| C60 | periodic CNNs are translation invariant | `c60_cpx_violated` | proved for CNN in any dimension; CpxCNN pads the periodically extended input with zeros and is not translation invariant for filters larger than one (proved violation) |
| C62 | measured errors are standard errors of the mean | `c62_measure_violated`, `c62_povm_error_violated` | one device per rank; wrong variance with several devices (exact value and that it is never too large proved for every layout), measure_povm reports variance/sqrt(n) (both proved) |
| C63 | parameter vectors of the wrong length are rejected | `c63_too_long_violated`, `c63_too_short_violated` | c63_accepted_iff: the accepted vectors, exactly; over-long vectors are cut silently, complex leaves of size two accept vectors one entry short (proved) |
| C64 | gradients_dict and gradients hold the same numbers | `c64_dict_violated` | complex non-holomorphic networks return half the entries (proved) |
| C65 | predefined local operators have their textbook matrices | `c65_ladder_swapped`, `c65_violated` | Sp and Sm are exchanged in the documented convention (proved) |
| C67 | select, tangent_kernel and linear transforms of SampledObs | `c67_linear_vector_violated`, `c67_linear_vector_mixes_samples` | select and tangent_kernel are complete; for vector-valued observations linearFun is contracted with the sample axis (proved) |
| C68 | mean_and_grad returns an expectation value and its gradient | `c68_devices_violated` | with several devices on a rank mean_and_grad raises ValueError (proved); one device per rank is proved |
| C69 | POVM observables and correlators are quantum expectation values | `c69_zero_distance_violated` | all non-zero distances; at distance 0 the reported value is 3 instead of 1 in the mixed state (proved) |
| C71 | MinSR keeps real parameters real | `c71_violated`, `c71_makeReal_ignored` | violated: makeReal is ignored and the update can be imaginary; real if the local energies are real too (c71_real_partial) |
| C74 | CpxCNNSym is invariant under its symmetries | `c74_spinflip_violated` | proved without spin flips; with spin flips the matrices act on 0/1 instead of spins, so that the claim is false (proved violation) |
| C75 | Markov chains reach every configuration and forget where they started | `c75_povm_violated`, `c75_spin_flip_violated`, `c75_spin_flip_Z2_violated` | Reachability and uniqueness of the stationary distribution proved for the three spin proposers. Convergence (geometric, any number of chains, any initial distribution) is proved for every symmetric connected proposer unless the target distribution is uniform and the moves are bipartite; hence always for zero magnetisation, and for the two flip proposers if \|psi\|^mu is not constant (or, for Z2, the number of sites is odd). Without this proviso convergence is false: for mu=0 and an even number of sweep steps the single-flip samplers only return configurations of even parity. Reachability is false for propose_POVM_outcome. |
| C77 | measurements are quantum expectation values |  | mean for every layout, variance on one device per rank; with several devices the variance is wrong (c62_measure_violated); the split of the basis must be even (C09) |
| C78 | zero variance and stationarity of eigenstates | `c78_monte_carlo_violated` | with a Monte Carlo sampler the update at an eigenstate is NaN instead of zero (proved) |
| C81 | init_net builds the symmetric wave function that is described | `c81_reuse_violated`, `c81_two_networks_violated`, `c81_two_networks_error_violated`, `c81_rotation_violated` | Proved for descriptions of one network. False in three cases, proved: a description with activation functions raises KeyError when it is used again, a description with two networks always raises, and so does a rotation on a chain. |
| C82 | amplitude and phase networks | `c82_sampler_violated` | False for phase networks with complex values, proved: the samplers ignore the contribution of the phase network to the modulus. |
| C84 | restricted Boltzmann machines connect all sites of the lattice | `c84_rbm_violated` | CpxRBM flattens the configuration; RBM does not, so that its wave function is a product over rows for all parameters (proved) |
| C85 | every sample call uses the current settings of the sampler | `c85_stale_mu`, `c85_violated` | Proved for all histories in which mu and the network change only together with another static argument (number of samples, sweeps, proposer). False for mu alone: a call with a number of samples that was used before uses the mu of the first call (proved, with witness). |
| C86 | networks can be created with every supported release of flax | `c86_violated` | Proved for 0.7 to 0.9. False from 0.10 on: the release numbers are compared as strings, and creation raises TypeError (proved for 0.10 to 0.39). |
| C87 | samplers respect logarithmic=False | `c87_plain`, `c87_violated` | Proved for logarithmic=True. False for logarithmic=False: the samplers take the output as logarithm and sample from \|exp(psi(s))\|^2 (proved for all networks, with witness). |
| C90 | recurrent networks compute the documented recursions | `c90_gru_2d_violated` | Proved for all cells on chains, and for RNN and LSTM on square lattices. False for GRU on square lattices: every network with at least one layer raises TypeError (the cell takes two arguments and is called with three). |
| C91 | invalid cell arguments are reported | `c91_unknown_violated`, `c91_complex_violated` | Exactly the documented names are accepted on chains. Unknown names raise AttributeError instead of ValueError, and the set-up of complex gated cells raises nothing: the ValueError is created but not raised. NQS refuses such networks later, with the exception about data types (c122_networks). |
| C92 | estimates from directly drawn samples |  | Mean, mean square deviation and tail bound proved in general, and for recurrent networks on chains and square lattices, plain and symmetrised (separate averaging). The reported error is treated with one device per rank: for several devices it is wrong (C04). Numbers of samples at least the number of ranks. |
| C93 | estimates from Markov chain samples | `c93_uniform_violated` | Proved for any proposer that is symmetric, connects all configurations and is not periodic, in particular the three spin flip proposers (single flips: if the amplitudes differ in magnitude; single and global flips: also for odd lattices; zero magnetisation: always, in the sector). sweepSteps at least 1. False for uniform \|psi\|^mu with single spin flips and even sweepSteps: measure reports 1 for the product of all sigma^z instead of 0 for every outcome and number of samples (proved). |
| C96 | Integrated trajectories converge to the solution of the differential equation | `c96_tolerance_violated` | Error bounds and limits are proved in exact arithmetic; AdaptiveHeun for right-hand sides that return new arrays (see C49). The documented claim that the integration error is smaller than the tolerance is false: a step of size 1 for dy/dt = sin(2 pi t)^2 is accepted for every tolerance with error 1/2 (proved). |
| C98 | Reported energies and variances locate the energy levels | `c98_final_violated` | In exact arithmetic, exactly weighted samples, real parameters. The last claim holds of the state before the last update only: the state that ground_state_search leaves in psi is one step further than the state whose variance was measured, and its variance can exceed the tolerance (proved). |
| C99 | Interrupted simulations can be resumed from their checkpoints | `c99_crash_violated`, `c99_adaptive_violated` | Part (1) holds in full for natural calls (names without slashes, same shapes). Part (2) holds for Euler and Heun with samplers that have no state (exact sampling), and after a crash if the index of the last complete checkpoint is given. Disagreements: the default idx=-1 after a crash inside write_network_checkpoint returns the new time with the old parameters, and the time step of AdaptiveHeun is not in the checkpoint, so that a resumed adaptive run takes other steps (both proved). |

## 6. Tests against wrong programs

`seeded/LOG.jsonl` has one line per edit of the model: the definition, the edit, the claim that becomes false, the
declarations that no longer compile and the theorems that were tightened when an edit was not noticed. Edits that do not
change the function (for example a reference coefficient that cancels, or the direction of a roll whose two
directions are both in the orbit) are marked in their note.

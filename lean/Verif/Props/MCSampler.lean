import Mathlib.Algebra.BigOperators.Field
import Mathlib.Algebra.Order.BigOperators.Ring.Finset
import Mathlib.Tactic.NormNum
import Mathlib.Tactic.FieldSimp
import Verif.Model.MCSampler
import Verif.Model.Proposers
import Verif.Spec.Samples
import Verif.Spec.Basis
import Verif.Spec.Configs
import Verif.Lemmas.MCSampler
import Verif.Lemmas.Proposers
import Verif.Props.Mpi
import Verif.Props.Proposers

/-! # Properties C12, C13 (sampler level), C15 (sampler level), C17–C19: Monte Carlo sampler -/

namespace JVMC

variable {S P K : Type}

/-- A small concrete sampler used for non-vacuity: keys are natural numbers, configurations
booleans, the proposer flips, all draws are zero. -/
noncomputable def demoSampler (numChains : ℕ) : McConfig Bool ℝ ℕ where
  rng := ⟨fun k n i => k + n + i, fun _ _ => 1 / 2⟩
  proposer := fun _ s => !s
  netRe := fun p s => if s then p else 0
  mu := 2
  thermSweeps := 1
  sweepSteps := 2
  numChains := numChains

/-! ## C12 -/

/-- **C12**, Markov chains, what the code does for every `multipleOf`: the number of configurations
produced by all ranks and devices, times `lcm(numChains, multipleOf)`, equals the reported number
times `numChains`; the reported number is the same on all ranks and at least the request. -/
theorem c12_mcmc_counts (c : McConfig S P K) (s D N m : ℕ) (hs : 0 < s) (hD : 0 < D)
    (hc : 0 < c.numChains) (hm : 0 < m) (params : P) (devs : ℕ → List (ChainState S K))
    (hdev : ∀ r < s, (devs r).length = D)
    (hch : ∀ r < s, ∀ d ∈ devs r, d.states.length = c.numChains) :
    ∃ (st : ℕ → List (ChainState S K)) (configs : ℕ → List (List S)) (glob : ℕ),
      (∀ r < s, getSamplesMcmc c s r params N m (devs r) = .ok (st r, configs r, glob)) ∧
      (∑ r ∈ Finset.range s, ((configs r).map List.length).sum) * Nat.lcm c.numChains m
        = glob * c.numChains ∧ N ≤ glob ∧
      ∀ r < s, ∀ dev ∈ configs r, c.numChains ∣ dev.length := by
  have hlcm : 0 < Nat.lcm c.numChains m := Nat.lcm_pos hc hm
  obtain ⟨perChain, glob, h1, h2, h3, _⟩ :=
    c01_distribute_sampling_devices s N D (Nat.lcm c.numChains m) hs hD hlcm
  have hlen : ∀ r < s, ∀ d ∈ devs r,
      (getSamples c params (perChain r) (mcInit c params d)).2.length
        = perChain r * c.numChains := by
    intro r hr d hd
    rw [getSamples_length _ _ _ _ (mcInit_length c params d)]
    show perChain r * d.states.length = _
    rw [hch r hr d hd]
  refine ⟨fun r => (devs r).map fun d => (getSamples c params (perChain r) (mcInit c params d)).1,
    fun r => (devs r).map fun d => (getSamples c params (perChain r) (mcInit c params d)).2,
    glob, ?_, ?_, h3, ?_⟩
  · intro r hr
    have hne : devs r ≠ [] := by
      intro h; rw [← hdev r hr, h] at hD; simp at hD
    obtain ⟨g, hg, hg'⟩ := getSamplesMcmc_eq c s r params N m (devs r) hs hne hc hm
    rw [hdev r hr, h1 r hr] at hg'
    injection hg' with hg'
    obtain ⟨hp, hgl⟩ := Prod.mk.injEq _ _ _ _ ▸ hg'
    rw [hg, hgl, hdev r hr, ← hp]
  · have : ∀ r ∈ Finset.range s, (((devs r).map fun d =>
        (getSamples c params (perChain r) (mcInit c params d)).2).map List.length).sum
        = D * (perChain r * c.numChains) := by
      intro r hr
      rw [Finset.mem_range] at hr
      rw [List.map_map]
      simp only [Function.comp_def]
      rw [List.map_congr_left (hlen r hr)]
      simp [hdev r hr]
    rw [Finset.sum_congr rfl this, ← h2, Finset.sum_mul, Finset.sum_mul]
    apply Finset.sum_congr rfl
    intro r _
    ring
  · intro r hr dev hdv
    obtain ⟨d, hd, rfl⟩ := List.mem_map.mp hdv
    rw [hlen r hr d hd]
    exact Dvd.intro_left _ rfl

/-- **C12**, Markov chains, the part that holds: if `multipleOf` divides the number of chains, then
the number of configurations returned over all ranks and devices is the reported number, is at
least the request, and every device holds a multiple of `multipleOf` samples. -/
theorem c12_mcmc_partial (c : McConfig S P K) (s D N m : ℕ) (hs : 0 < s) (hD : 0 < D)
    (hc : 0 < c.numChains) (hm : 0 < m) (hmc : m ∣ c.numChains) (params : P)
    (devs : ℕ → List (ChainState S K)) (hdev : ∀ r < s, (devs r).length = D)
    (hch : ∀ r < s, ∀ d ∈ devs r, d.states.length = c.numChains) :
    ∃ (st : ℕ → List (ChainState S K)) (configs : ℕ → List (List S)) (glob : ℕ),
      (∀ r < s, getSamplesMcmc c s r params N m (devs r) = .ok (st r, configs r, glob)) ∧
      ∑ r ∈ Finset.range s, ((configs r).map List.length).sum = glob ∧ N ≤ glob ∧
      ∀ r < s, ∀ dev ∈ configs r, m ∣ dev.length := by
  obtain ⟨st, configs, glob, h1, h2, h3, h4⟩ :=
    c12_mcmc_counts c s D N m hs hD hc hm params devs hdev hch
  refine ⟨st, configs, glob, h1, ?_, h3, fun r hr dev hd => hmc.trans (h4 r hr dev hd)⟩
  rw [Nat.lcm_eq_left hmc] at h2
  exact Nat.eq_of_mul_eq_mul_right hc h2

/-- **C12 is violated** (Markov chains): whenever `multipleOf` does not divide the number of chains
and at least one sample is requested, fewer configurations are returned than reported. -/
theorem c12_mcmc_violated (c : McConfig S P K) (s D N m : ℕ) (hs : 0 < s) (hD : 0 < D)
    (hc : 0 < c.numChains) (hm : 0 < m) (hN : 0 < N) (hmc : ¬ m ∣ c.numChains) (params : P)
    (devs : ℕ → List (ChainState S K)) (hdev : ∀ r < s, (devs r).length = D)
    (hch : ∀ r < s, ∀ d ∈ devs r, d.states.length = c.numChains) :
    ∃ (st : ℕ → List (ChainState S K)) (configs : ℕ → List (List S)) (glob : ℕ),
      (∀ r < s, getSamplesMcmc c s r params N m (devs r) = .ok (st r, configs r, glob)) ∧
      ∑ r ∈ Finset.range s, ((configs r).map List.length).sum < glob := by
  obtain ⟨st, configs, glob, h1, h2, h3, _⟩ :=
    c12_mcmc_counts c s D N m hs hD hc hm params devs hdev hch
  refine ⟨st, configs, glob, h1, ?_⟩
  have hlt : c.numChains < Nat.lcm c.numChains m := by
    refine lt_of_le_of_ne (Nat.le_of_dvd (Nat.lcm_pos hc hm) (Nat.dvd_lcm_left _ _)) ?_
    intro h
    exact hmc (h ▸ Nat.dvd_lcm_right c.numChains m)
  by_contra hge
  rw [not_lt] at hge
  have : glob * c.numChains < glob * Nat.lcm c.numChains m :=
    Nat.mul_lt_mul_of_pos_left hlt (by omega)
  have := Nat.mul_le_mul_right (Nat.lcm c.numChains m) hge
  omega

/-- The violation is met by a concrete sampler and produces even fewer samples than *requested*:
one chain, `sample(numSamples=8, multipleOf=4)` returns 2 configurations and reports 8. -/
theorem c12_mcmc_violated_witness :
    ∃ st configs, getSamplesMcmc (demoSampler 1) 1 0 (0 : ℝ) 8 4 [chainInit (demoSampler 1) false 0]
      = .ok (st, configs, 8) ∧ (configs.map List.length).sum = 2 := by
  obtain ⟨g, hg, hg'⟩ := getSamplesMcmc_eq (demoSampler 1) 1 0 (0 : ℝ) 8 4
    [chainInit (demoSampler 1) false 0] (by simp) (by simp) (by simp [demoSampler]) (by simp)
  have h8 : g = 8 := by
    have : distributeSampling 1 0 8 (some 1) 4 = .ok (2, 8) := by decide
    have h2 : (demoSampler 1).numChains.lcm 4 = 4 := by simp [demoSampler]
    rw [h2] at hg'
    rw [List.length_singleton, this] at hg'
    injection hg' with h
    exact (Prod.mk.injEq _ _ _ _ ▸ h).2.symm
  refine ⟨_, _, h8 ▸ hg, ?_⟩
  simp only [List.map_cons, List.map_nil, List.sum_cons, List.sum_nil]
  rw [getSamples_length _ _ _ _ (mcInit_length _ _ _)]
  simp [mcInit, chainInit, demoSampler, samplesPerChain, samplesPerProcess]

/-- **C12**, direct sampling, what the code does: the number of samples produced, times
`multipleOf`, is the reported number. -/
theorem c12_direct_counts (s D N m : ℕ) (hs : 0 < s) (hD : 0 < D) (hm : 0 < m) :
    ∃ (counts : ℕ → List ℕ) (glob : ℕ),
      (∀ r < s, getSamplesGenCounts s r D N m = .ok (counts r, glob)) ∧
      (∑ r ∈ Finset.range s, (counts r).sum) * m = glob ∧ N ≤ glob := by
  obtain ⟨perChain, glob, h1, h2, h3, _⟩ := c01_distribute_sampling_devices s N D m hs hD hm
  refine ⟨fun r => List.replicate D (perChain r), glob, ?_, ?_, h3⟩
  · intro r hr
    unfold getSamplesGenCounts
    rw [h1 r hr]
    rfl
  · rw [← h2, Finset.sum_mul]
    apply Finset.sum_congr rfl
    intro r _
    simp only [List.sum_replicate, smul_eq_mul]
    ring

example := c12_direct_counts 3 2 100 5 (by norm_num) (by norm_num) (by norm_num)

/-- **C12**, direct sampling, the part that holds (`multipleOf = 1`). -/
theorem c12_direct_partial (s D N : ℕ) (hs : 0 < s) (hD : 0 < D) :
    ∃ (counts : ℕ → List ℕ) (glob : ℕ),
      (∀ r < s, getSamplesGenCounts s r D N 1 = .ok (counts r, glob)) ∧
      ∑ r ∈ Finset.range s, (counts r).sum = glob ∧ N ≤ glob := by
  obtain ⟨counts, glob, h1, h2, h3⟩ := c12_direct_counts s D N 1 hs hD one_pos
  exact ⟨counts, glob, h1, by simpa using h2, h3⟩

example := c12_direct_partial 3 2 100 (by norm_num) (by norm_num)

/-- **C12 is violated** (direct sampling): `sample(numSamples=8, multipleOf=4)` draws 2 samples on
one device and reports 8. -/
theorem c12_direct_violated : getSamplesGenCounts 1 0 1 8 4 = .ok ([2], 8) := by decide

/-- Non-vacuity of `c12_mcmc_partial`: 2 ranks, 3 devices, 4 chains, `multipleOf = 2`. -/
example : (∀ r < 2, ((fun r => [chainInit (demoSampler 4) false r, chainInit (demoSampler 4) true 1,
      chainInit (demoSampler 4) false 2]) r).length = 3) ∧ 2 ∣ (demoSampler 4).numChains ∧
    (∀ r < 2, ∀ d ∈ [chainInit (demoSampler 4) false r, chainInit (demoSampler 4) true 1,
      chainInit (demoSampler 4) false 2], d.states.length = (demoSampler 4).numChains) := by
  refine ⟨by simp, by simp [demoSampler], by simp [chainInit, demoSampler]⟩

/-! ## C17 -/

/-- **C17**: take any device state whatsoever (in particular one left behind by earlier calls with
other parameters). At every moment of a `sample` call at parameters `params`, i.e. after `_mc_init`
and any number `k` of updates, the cached value of every chain is `mu * Re log ψ_params` of that
chain's configuration. -/
theorem c17_cached_log_prob (c : McConfig S P K) (params : P) (d : ChainState S K) (k : ℕ) :
    ((performMcUpdate c params)^[k] (mcInit c params d)).logAccProb
      = ((performMcUpdate c params)^[k] (mcInit c params d)).states.map
          fun y => c.mu * c.netRe params y :=
  coherent_iterate c params k _ (coherent_mcInit c params d)

/-- **C17**, histories: after every non-empty history of `sample` calls the cached values belong to
the parameters of the last call, on every device. -/
theorem c17_after_history (c : McConfig S P K) (s r : ℕ) (hs : 0 < s) (hc : 0 < c.numChains)
    (devs : List (ChainState S K)) (hd : devs ≠ []) (calls : List (P × ℕ × ℕ))
    (params : P) (n m : ℕ) (hm : ∀ call ∈ calls ++ [(params, n, m)], 0 < call.2.2) :
    ∃ final, mcRun c s r devs (calls ++ [(params, n, m)]) = .ok final ∧
      final.length = devs.length ∧
      ∀ d ∈ final, d.logAccProb = d.states.map fun y => c.mu * c.netRe params y := by
  induction calls generalizing devs with
  | nil =>
    obtain ⟨g, hg, _⟩ := getSamplesMcmc_eq c s r params n m devs hs hd hc
      (hm (params, n, m) (by simp))
    refine ⟨devs.map fun d => (getSamples c params
        (samplesPerChain (devs.length * Nat.lcm c.numChains m) (samplesPerProcess s r n))
        (mcInit c params d)).1, ?_, ?_, ?_⟩
    · simp only [List.nil_append, mcRun]
      rw [hg]
      rfl
    · simp
    · intro d hd'
      obtain ⟨d₀, _, rfl⟩ := List.mem_map.mp hd'
      rw [getSamples_fst]
      exact coherent_iterate c params _ _ (coherent_mcInit c params d₀)
  | cons call calls ih =>
    obtain ⟨p, n', m'⟩ := call
    obtain ⟨g, hg, _⟩ := getSamplesMcmc_eq c s r p n' m' devs hs hd hc
      (hm (p, n', m') (by simp))
    have hne : devs.map (fun d => (getSamples c p
          (samplesPerChain (devs.length * Nat.lcm c.numChains m') (samplesPerProcess s r n'))
          (mcInit c p d)).1) ≠ [] := by simpa using hd
    obtain ⟨final, hf, hl, hco⟩ := ih _ hne (fun call hcall => hm call (by simp_all))
    refine ⟨final, ?_, by simpa using hl, hco⟩
    simp only [List.cons_append, mcRun]
    rw [hg]
    exact hf

/-- The configurations returned are the chain states after `(therm + j + 1) * sweepSteps` updates
from the initial chain, `j = 0, 1, …`: nothing is skipped, reordered or duplicated. -/
theorem c17_samples_are_chain_states (c : McConfig S P K) (params : P) (n : ℕ)
    (d : ChainState S K) :
    (getSamples c params n d).2 = (List.range n).flatMap fun j =>
      ((performMcUpdate c params)^[(c.thermSweeps + j + 1) * c.sweepSteps] d).states :=
  getSamples_snd c params n d

/-- Non-vacuity: a history of two calls with different parameters on a two-chain sampler. -/
example : ∃ final, mcRun (demoSampler 2) 1 0 [chainInit (demoSampler 2) false 0]
    ([((1 : ℝ), 4, 1)] ++ [((3 : ℝ), 6, 2)]) = .ok final ∧ final.length = 1 := by
  obtain ⟨f, h1, h2, _⟩ := c17_after_history (demoSampler 2) 1 0 (by simp) (by simp [demoSampler])
    [chainInit (demoSampler 2) false 0] (by simp) [((1 : ℝ), 4, 1)] 3 6 2 (by simp)
  exact ⟨f, h1, h2⟩

/-! ## C13, C15 at the level of the sampler -/

theorem update_mem (c : McConfig S P K) (params : P) (Inv : S → Prop)
    (hprop : ∀ k s, Inv s → Inv (c.proposer k s)) (d : ChainState S K)
    (h : ∀ s ∈ d.states, Inv s) : ∀ s ∈ (performMcUpdate c params d).states, Inv s := by
  intro s hs
  unfold performMcUpdate at hs
  dsimp only at hs
  obtain ⟨i, hi, rfl⟩ := List.mem_iff_getElem.mp hs
  simp only [List.getElem_zipWith, List.getElem_zip, List.getElem_mapIdx]
  split_ifs
  · exact hprop _ _ (h _ (List.getElem_mem _))
  · exact h _ (List.getElem_mem _)

/-- **C13**, sampler level: if the proposer stays in a set of configurations and the chains start
there, every configuration ever returned, in every call, is in that set. -/
theorem c13_sampler_stays_in_space (c : McConfig S P K) (Inv : S → Prop)
    (hprop : ∀ k s, Inv s → Inv (c.proposer k s)) (params : P) (n : ℕ) (d : ChainState S K)
    (h : ∀ s ∈ d.states, Inv s) :
    (∀ s ∈ (getSamples c params n d).2, Inv s) ∧
      ∀ s ∈ (getSamples c params n d).1.states, Inv s := by
  have hit : ∀ k, ∀ s ∈ ((performMcUpdate c params)^[k] d).states, Inv s := by
    intro k
    induction k with
    | zero => exact h
    | succ k ih =>
      rw [Function.iterate_succ_apply']
      exact update_mem c params Inv hprop _ ih
  constructor
  · intro s hs
    rw [getSamples_snd] at hs
    obtain ⟨j, _, hj⟩ := List.mem_flatMap.mp hs
    exact hit _ s hj
  · rw [getSamples_fst]
    exact hit _

/-- **C15**, sampler level: with the zero-magnetisation proposer (whatever the draws its keys
produce) and a balanced initial configuration, every returned configuration is balanced. -/
theorem c15_sampler_balanced (c : McConfig (List ℤ) P K) (L : ℕ)
    (draw : K → ℤ × ℤ × ℕ) (hdraw : ∀ k, draw k ∈ zeroMagDraws L)
    (hprop : ∀ k s, c.proposer k s
      = proposeSpinFlipZeroMag (draw k).1 (draw k).2.1 (draw k).2.2 s)
    (params : P) (n : ℕ) (d : ChainState (List ℤ) K)
    (h : ∀ s ∈ d.states, Spec.Balanced s ∧ s.length = L) :
    ∀ s ∈ (getSamples c params n d).2, Spec.Balanced s ∧ s.length = L := by
  refine (c13_sampler_stays_in_space c (fun s => Spec.Balanced s ∧ s.length = L) ?_ params n d
    h).1
  rintro k s ⟨hs, hl⟩
  rw [hprop]
  have hd := hdraw k
  rw [← hl] at hd
  have := c15_zeroMag_step s hs (draw k) hd
  exact ⟨this.1, this.2.trans hl⟩

/-- Non-vacuity of `c15_sampler_balanced`. -/
example : ∀ k : ℕ, ((fun _ => (1, 2, 4)) k : ℤ × ℤ × ℕ) ∈ zeroMagDraws 6 := by
  intro k; simp only; decide

/-! ## C18 -/

/-- **C18**: after a `sample` call on a rank, starting from any device states with `numChains`
chains each, every device has made `(therm + n) * sweepSteps * numChains` proposals, where `n` is
the number of samples per chain, and has accepted at most that many. Earlier calls leave no trace
in the counters. -/
theorem c18_counters (c : McConfig S P K) (s r : ℕ) (params : P) (N m : ℕ)
    (devs : List (ChainState S K)) (hs : 0 < s) (hd : devs ≠ []) (hc : 0 < c.numChains)
    (hm : 0 < m) (hch : ∀ d ∈ devs, d.states.length = c.numChains) :
    ∃ final configs glob n, getSamplesMcmc c s r params N m devs = .ok (final, configs, glob) ∧
      (∃ g, distributeSampling s r N (some devs.length) (Nat.lcm c.numChains m) = .ok (n, g)) ∧
      (∀ d ∈ final, d.numProposed = (c.thermSweeps + n) * c.sweepSteps * c.numChains ∧
        d.numAccepted ≤ d.numProposed ∧ d.states.length = c.numChains) := by
  obtain ⟨g, hg, hg'⟩ := getSamplesMcmc_eq c s r params N m devs hs hd hc hm
  refine ⟨_, _, g, _, hg, ⟨g, hg'⟩, ?_⟩
  intro d hd'
  obtain ⟨d₀, hd₀, rfl⟩ := List.mem_map.mp hd'
  rw [getSamples_fst]
  have hl := mcInit_length c params d₀
  have hn : (mcInit c params d₀).states.length = c.numChains := hch d₀ hd₀
  obtain ⟨h1, h2⟩ := iterate_counts c params ((c.thermSweeps +
    samplesPerChain (devs.length * Nat.lcm c.numChains m) (samplesPerProcess s r N))
    * c.sweepSteps) (mcInit c params d₀) hl
  rw [hn] at h1 h2
  have h3 : (mcInit c params d₀).numProposed = 0 := rfl
  have h4 : (mcInit c params d₀).numAccepted = 0 := rfl
  rw [h3, zero_add] at h1
  rw [h4, zero_add] at h2
  exact ⟨h1, h1 ▸ h2, (iterate_length c params _ _ hl).1.trans hn⟩

/-- **C18**: whenever no device accepted more than it proposed, on any ranks and devices,
`acceptance_ratio()` is in `[0, 1]`; it is the global ratio if there was any proposal. -/
theorem c18_ratio (counters : List (List (ℕ × ℕ)))
    (h : ∀ rk ∈ counters, ∀ d ∈ rk, d.2 ≤ d.1) :
    0 ≤ acceptanceRatio (counters.map (·.map Prod.fst)) (counters.map (·.map Prod.snd)) ∧
    acceptanceRatio (counters.map (·.map Prod.fst)) (counters.map (·.map Prod.snd)) ≤ 1 ∧
    acceptanceRatio (counters.map (·.map Prod.fst)) (counters.map (·.map Prod.snd))
      * ((counters.flatten.map Prod.fst).sum : ℝ) = ((counters.flatten.map Prod.snd).sum : ℝ) := by
  have e1 : (counters.map (·.map Prod.fst)).flatten = counters.flatten.map Prod.fst := by
    rw [List.map_flatten]
  have e2 : (counters.map (·.map Prod.snd)).flatten = counters.flatten.map Prod.snd := by
    rw [List.map_flatten]
  have hle : (counters.flatten.map Prod.snd).sum ≤ (counters.flatten.map Prod.fst).sum := by
    apply List.sum_le_sum
    intro d hd
    obtain ⟨rk, hrk, hd⟩ := List.mem_flatten.mp hd
    exact h rk hrk d hd
  unfold acceptanceRatio
  rw [e1, e2]
  dsimp only
  split_ifs with hp
  · have hp' : (0 : ℝ) < ((counters.flatten.map Prod.fst).sum : ℝ) := by exact_mod_cast hp
    refine ⟨by positivity, ?_, div_mul_cancel₀ _ hp'.ne'⟩
    rw [div_le_one hp']
    exact_mod_cast hle
  · have h0 : (counters.flatten.map Prod.fst).sum = 0 := by omega
    have h1 : (counters.flatten.map Prod.snd).sum = 0 := by omega
    rw [h0, h1]
    simp

/-- Non-vacuity: two ranks with two devices; 7 of 24 proposals accepted. -/
example : acceptanceRatio [[6, 6], [6, 6]] [[1, 2], [0, 4]] = 7 / 24 := by
  simp [acceptanceRatio]

/-! ## C19 -/

/-- **C19**, Markov chains: the weights are positive, sum to one over all ranks and devices, and
the weight of a sample is `|ψ|^(1/f) / |ψ|^mu` up to the common normalisation. -/
theorem c19_mcmc_weights (f mu : ℝ) (world : List (List (List ℂ))) (hw : ∀ r ∈ world, r ≠ [])
    (hne : Spec.allSamples world ≠ []) :
    ∃ Z : ℝ, 0 < Z ∧
      mcmcWeights f mu world = .ok (world.map fun rk => rk.map fun dev => dev.map fun logPsi =>
        Real.exp (logPsi.re / f) / Real.exp (mu * logPsi.re) / Z) ∧
      ((Spec.allSamples world).map fun logPsi =>
        Real.exp (logPsi.re / f) / Real.exp (mu * logPsi.re) / Z).sum = 1 := by
  have hexp : ∀ z : ℂ, Real.exp ((1 / f - mu) * z.re)
      = Real.exp (z.re / f) / Real.exp (mu * z.re) := by
    intro z
    rw [← Real.exp_sub]
    congr 1
    ring
  set Z := ((Spec.allSamples world).map fun z => Real.exp (z.re / f) / Real.exp (mu * z.re)).sum
    with hZ
  have hZpos : 0 < Z := by
    apply List.sum_pos
    · intro x hx
      obtain ⟨z, _, rfl⟩ := List.mem_map.mp hx
      positivity
    · simpa using hne
  refine ⟨Z, hZpos, ?_, ?_⟩
  · unfold mcmcWeights
    simp only [hexp]
    rw [globalSum_eq, allSamples_map, ← hZ]
    · show Except.ok _ = Except.ok _
      congr 1
      rw [List.map_map, List.zip_map', List.map_map]
      apply List.map_congr_left
      intro rk _
      simp [Function.comp_def, List.map_map]
    · intro r hr
      obtain ⟨rk, hrk, rfl⟩ := List.mem_map.mp hr
      simpa using hw rk hrk
  · have : ∀ l : List ℂ, (l.map fun z => Real.exp (z.re / f) / Real.exp (mu * z.re) / Z).sum
        = (l.map fun z => Real.exp (z.re / f) / Real.exp (mu * z.re)).sum / Z := by
      intro l
      induction l with
      | nil => simp
      | cons z l ih => simp only [List.map_cons, List.sum_cons, ih]; ring
    rw [this, ← hZ]
    exact div_self hZpos.ne'

example := c19_mcmc_weights 2 (1 / 2) [[[(1 : ℂ)]], [[Complex.I], [2]]] (by simp) (by simp [Spec.allSamples])

/-- **C19**, reweighting: over a finite configuration space, expectation values under the chain's
distribution `q ∝ |ψ|^mu` with weights proportional to the ones above are the expectation values
under the Born distribution `∝ |ψ|^(1/f)`. -/
theorem c19_reweighting {C : Type*} [Fintype C] [Nonempty C] (f mu : ℝ) (logPsi : C → ℂ)
    (O : C → ℝ) :
    let q : C → ℝ := fun s => Real.exp (mu * (logPsi s).re) / ∑ s, Real.exp (mu * (logPsi s).re)
    let w : C → ℝ := fun s => Real.exp ((logPsi s).re / f) / Real.exp (mu * (logPsi s).re)
    (∑ s, q s * w s * O s) / (∑ s, q s * w s)
      = (∑ s, Real.exp ((logPsi s).re / f) * O s) / (∑ s, Real.exp ((logPsi s).re / f)) := by
  intro q w
  have hZ : 0 < ∑ s, Real.exp (mu * (logPsi s).re) :=
    Finset.sum_pos (fun s _ => Real.exp_pos _) Finset.univ_nonempty
  have hqw : ∀ s, q s * w s = Real.exp ((logPsi s).re / f) / ∑ s, Real.exp (mu * (logPsi s).re) := by
    intro s
    simp only [q, w]
    have := (Real.exp_pos (mu * (logPsi s).re)).ne'
    field_simp
  simp only [hqw]
  have hB : 0 < ∑ s, Real.exp ((logPsi s).re / f) :=
    Finset.sum_pos (fun s _ => Real.exp_pos _) Finset.univ_nonempty
  rw [← Finset.sum_div]
  have : ∑ s, Real.exp ((logPsi s).re / f) / (∑ s, Real.exp (mu * (logPsi s).re)) * O s
      = (∑ s, Real.exp ((logPsi s).re / f) * O s) / ∑ s, Real.exp (mu * (logPsi s).re) := by
    rw [Finset.sum_div]
    apply Finset.sum_congr rfl
    intro s _
    ring
  rw [this]
  exact div_div_div_cancel_right₀ hZ.ne' _ _

/-- **C19**, direct sampling, what the code does: the weights over all ranks and devices sum to
`1 / multipleOf`. -/
theorem c19_direct_sum (s D N m : ℕ) (hs : 0 < s) (hD : 0 < D) (hm : 0 < m) (hN : 0 < N) :
    ∃ w : ℕ → List (List ℝ), (∀ r < s, genWeights s r D N m = .ok (w r)) ∧
      ∑ r ∈ Finset.range s, (w r).flatten.sum = 1 / (m : ℝ) := by
  obtain ⟨counts, glob, h1, h2, h3⟩ := c12_direct_counts s D N m hs hD hm
  refine ⟨fun r => (counts r).map fun n => List.replicate n (1 / (glob : ℝ)), ?_, ?_⟩
  · intro r hr
    unfold genWeights
    rw [h1 r hr]
    rfl
  · have hflat : ∀ l : List ℕ, (l.map fun n => List.replicate n (1 / (glob : ℝ))).flatten.sum
        = (l.sum : ℝ) * (1 / (glob : ℝ)) := by
      intro l
      induction l with
      | nil => simp
      | cons n l ih =>
        rw [List.map_cons, List.flatten_cons, List.sum_append, ih]
        simp only [List.sum_replicate, List.sum_cons, nsmul_eq_mul]
        push_cast
        ring
    simp only [hflat]
    rw [← Finset.sum_mul]
    have hg : (glob : ℝ) ≠ 0 := by
      have : 0 < glob := by omega
      positivity
    have hmR : (m : ℝ) ≠ 0 := by positivity
    have : (∑ r ∈ Finset.range s, ((counts r).sum : ℝ)) * m = glob := by exact_mod_cast h2
    field_simp
    linarith

example := c19_direct_sum 3 2 100 5 (by norm_num) (by norm_num) (by norm_num) (by norm_num)

/-- **C19**, direct sampling, the part that holds: with `multipleOf = 1` the weights sum to one. -/
theorem c19_direct_partial (s D N : ℕ) (hs : 0 < s) (hD : 0 < D) (hN : 0 < N) :
    ∃ w : ℕ → List (List ℝ), (∀ r < s, genWeights s r D N 1 = .ok (w r)) ∧
      ∑ r ∈ Finset.range s, (w r).flatten.sum = 1 := by
  obtain ⟨w, h1, h2⟩ := c19_direct_sum s D N 1 hs hD one_pos hN
  exact ⟨w, h1, by simpa using h2⟩

example := c19_direct_partial 3 2 100 (by norm_num) (by norm_num) (by norm_num)

/-- **C19 is violated** by direct sampling with `multipleOf = 4`: two samples of weight 1/8. -/
theorem c19_direct_violated : genWeights 1 0 1 8 4 = .ok [[1 / 8, 1 / 8]] := by
  unfold genWeights
  rw [c12_direct_violated]
  show Except.ok _ = Except.ok _
  norm_num [List.replicate]

/-- Non-vacuity of `c19_mcmc_weights`: two ranks, one with two devices. -/
example : (∀ r ∈ [[[(1 : ℂ)]], [[Complex.I], [2]]], r ≠ []) ∧
    Spec.allSamples [[[(1 : ℂ)]], [[Complex.I], [2]]] ≠ [] := by
  simp [Spec.allSamples]

/-! ## C76: constructor arguments -/

/-- **C76**: the constructor of `MCSampler` accepts exactly the arguments with `0 ≤ mu ≤ 2` and, for
networks that cannot generate samples directly, an update proposer; a missing proposer raises
`RuntimeError`, otherwise a `mu` outside the range raises `ValueError`. -/
theorem c76_constructor (isGenerator hasProposer : Bool) (mu : ℝ) :
    (mcValidate isGenerator hasProposer mu = .ok () ↔
      (isGenerator = true ∨ hasProposer = true) ∧ 0 ≤ mu ∧ mu ≤ 2) ∧
    (mcValidate isGenerator hasProposer mu = .error .runtimeError ↔
      isGenerator = false ∧ hasProposer = false) ∧
    (mcValidate isGenerator hasProposer mu = .error .valueError ↔
      (isGenerator = true ∨ hasProposer = true) ∧ (mu < 0 ∨ 2 < mu)) := by
  unfold mcValidate
  by_cases h : mu < 0 ∨ mu > 2
  · rw [if_pos h]
    have h' : ¬ (0 ≤ mu ∧ mu ≤ 2) := by
      rintro ⟨h1, h2⟩; rcases h with h | h <;> linarith
    have h'' : mu < 0 ∨ 2 < mu := h
    cases isGenerator <;> cases hasProposer <;> simp [h', h'']
  · rw [if_neg h]
    have h' : 0 ≤ mu ∧ mu ≤ 2 := by
      push Not at h; exact h
    have h'' : ¬ (mu < 0 ∨ 2 < mu) := h
    cases isGenerator <;> cases hasProposer <;> simp [h', h'']

/-- Non-vacuity of `c76_constructor`. -/
example : mcValidate false true 2 = .ok () ∧ mcValidate false true 3 = .error .valueError :=
  ⟨(c76_constructor _ _ _).1.mpr (by norm_num), (c76_constructor _ _ _).2.2.mpr (by norm_num)⟩

end JVMC

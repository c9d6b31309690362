import Verif.Model.MCSampler
import Verif.Model.Rounding

/-!
# Model of Monte Carlo updates with rounding errors

`perform_mc_update` (`jVMC/sampler.py:315-341`) in floating point arithmetic. `netRe` is the value that the machine computes for
the real part of the network; `expR` is the exponential function of the machine. Both are functions: the same configuration
always gives the same number. Simplification: XLA may evaluate a network in a different order when it is compiled for another
number of chains; within one sampler this number is fixed.
-/

namespace JVMC

/-- The uniform numbers of `jax.random`: 52 random bits behind the binary point, so the largest multiple of `2^-52` that is not
above a real uniform number. (sampler.py:329: `random.bernoulli` compares such a number with its argument) -/
noncomputable def gridUniform (u : ℝ) : ℝ := (⌊(2 : ℝ) ^ 52 * u⌋ : ℝ) / 2 ^ 52

/-- What the machine keeps as the logarithm of the acceptance weight: `mu * real(net(params, y))`, rounded.
(sampler.py:324, 356) -/
noncomputable def logAccRnd {S P K : Type} (r : Rounding) (c : McConfig S P K) (params : P) (y : S) : ℝ :=
  r.rnd (c.mu * c.netRe params y)

/-- One update of one chain in floating point arithmetic: the difference of the logarithmic weights is rounded, the exponential
function is that of the machine, and the uniform number has 52 bits. (sampler.py:321-339) -/
noncomputable def roundedStep {Ω S : Type*} (r : Rounding) (expR : ℝ → ℝ) (propose : Ω → S → S) (l : S → ℝ) (ω : Ω) (u : ℝ)
    (s : S) : S :=
  if gridUniform u < expR (r.rnd (l (propose ω s) - l s)) then propose ω s else s

variable {S P K : Type}

/-- `perform_mc_update` in floating point arithmetic. (sampler.py:315-341) -/
noncomputable def performMcUpdateRnd (r : Rounding) (expR : ℝ → ℝ) (c : McConfig S P K) (params : P) (d : ChainState S K) :
    ChainState S K :=
  let n := d.states.length
  let newKeys := fun i => c.rng.split d.key (n + 1) i
  let carryKey := newKeys n
  let newStates := d.states.mapIdx fun i s => c.proposer (newKeys i) s
  let newLogAccProb := newStates.map (logAccRnd r c params)
  let Ps := List.zipWith (fun new old => expR (r.rnd (new - old))) newLogAccProb d.logAccProb
  let newKey := c.rng.split carryKey 2 0
  let carryKey' := c.rng.split carryKey 2 1
  let accepted := Ps.mapIdx fun i p => decide (gridUniform (c.rng.uniform newKey i) < p)
  { states := List.zipWith (fun a on => if a then on.2 else on.1) accepted
      (d.states.zip newStates)
    logAccProb := List.zipWith (fun a no => if a then no.1 else no.2) accepted
      (newLogAccProb.zip d.logAccProb)
    key := carryKey'
    numProposed := d.numProposed + newStates.length
    numAccepted := d.numAccepted + (accepted.filter (· = true)).length }

/-- `_mc_init` in floating point arithmetic. (sampler.py:348-359) -/
noncomputable def mcInitRnd (r : Rounding) (c : McConfig S P K) (params : P) (d : ChainState S K) : ChainState S K :=
  { d with
    logAccProb := d.states.map (logAccRnd r c params)
    numProposed := 0
    numAccepted := 0 }

end JVMC

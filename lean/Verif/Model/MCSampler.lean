import Mathlib.Analysis.SpecialFunctions.Exp
import Mathlib.Data.Complex.Basic
import Verif.Model.Mpi

/-!
# Model of `MCSampler` (`jVMC/sampler.py:67-374`)

Generic in the configuration type `S`, the parameter type `P` and the key type `K`.
The random number generator is an arbitrary structure `Rng`: the theorems quantify over it, i.e.
over all possible draws.
-/

namespace JVMC

/-- What the sampler uses of `jax.random`: `random.split(key, n)[i]`, and the comparison variate of
`random.bernoulli(key, P)` for chain `i` (the result is `u < P[i]`). Arbitrary functions.
(sampler.py:318, 327-328) -/
structure Rng (K : Type) where
  split : K → ℕ → ℕ → K
  uniform : K → ℕ → ℝ

/-- The sampler state of one device (the attributes `states, logAccProb, key, numProposed,
numAccepted`, sampler.py:276). -/
structure ChainState (S K : Type) where
  states : List S
  logAccProb : List ℝ
  key : K
  numProposed : ℕ
  numAccepted : ℕ

/-- Fixed configuration of a sampler (sampler.py:103-147): proposer (a function of key and
configuration), the *real-valued* sampler net `Re log ψ` returned by `get_sampler_net`
(vqs.py:337-352), `mu`, sweep parameters. -/
structure McConfig (S P K : Type) where
  rng : Rng K
  proposer : K → S → S
  netRe : P → S → ℝ
  mu : ℝ
  thermSweeps : ℕ
  sweepSteps : ℕ
  numChains : ℕ

variable {S P K : Type}

/-- sampler.py:315-341, `perform_mc_update`. `jnp.sum(accepted)` counts the accepted chains. -/
noncomputable def performMcUpdate (c : McConfig S P K) (params : P) (d : ChainState S K) :
    ChainState S K :=
  let n := d.states.length
  let newKeys := fun i => c.rng.split d.key (n + 1) i
  let carryKey := newKeys n
  let newStates := d.states.mapIdx fun i s => c.proposer (newKeys i) s
  let newLogAccProb := newStates.map fun y => c.mu * c.netRe params y
  let Ps := List.zipWith (fun new old => Real.exp (new - old)) newLogAccProb d.logAccProb
  let newKey := c.rng.split carryKey 2 0
  let carryKey' := c.rng.split carryKey 2 1
  let accepted := Ps.mapIdx fun i p => decide (c.rng.uniform newKey i < p)
  { states := List.zipWith (fun a on => if a then on.2 else on.1) accepted
      (d.states.zip newStates)
    logAccProb := List.zipWith (fun a no => if a then no.1 else no.2) accepted
      (newLogAccProb.zip d.logAccProb)
    key := carryKey'
    numProposed := d.numProposed + newStates.length
    numAccepted := d.numAccepted + (accepted.filter (· = true)).length }

/-- sampler.py:313-346, `_sweep`: `fori_loop` of `numSteps` updates. -/
noncomputable def sweep (c : McConfig S P K) (params : P) (numSteps : ℕ) (d : ChainState S K) :
    ChainState S K :=
  (performMcUpdate c params)^[numSteps] d

/-- sampler.py:300-308: the `lax.scan` that collects samples. -/
noncomputable def collect (c : McConfig S P K) (params : P) : ℕ → ChainState S K →
    ChainState S K × List (List S)
  | 0, d => (d, [])
  | n + 1, d =>
    let d' := sweep c params c.sweepSteps d
    let (d'', out) := collect c params n d'
    (d'', d'.states :: out)

/-- sampler.py:289-311, `_get_samples` on one device. -/
noncomputable def getSamples (c : McConfig S P K) (params : P) (numSamples : ℕ)
    (d : ChainState S K) : ChainState S K × List S :=
  let d₁ := sweep c params (c.thermSweeps * c.sweepSteps) d
  let (d₂, configs) := collect c params numSamples d₁
  (d₂, configs.flatten)

/-- sampler.py:348-359, `_mc_init` on one device. -/
noncomputable def mcInit (c : McConfig S P K) (params : P) (d : ChainState S K) : ChainState S K :=
  { d with
    logAccProb := d.states.map fun y => c.mu * c.netRe params y
    numProposed := 0
    numAccepted := 0 }

/-- sampler.py:118-121: initial states of one device, all chains in `initState`. The attribute
`logAccProb` does not exist before the first `_mc_init`; it is the empty list here. -/
def chainInit (c : McConfig S P K) (initState : S) (key : K) : ChainState S K :=
  { states := List.replicate c.numChains initState
    logAccProb := []
    key := key
    numProposed := 0
    numAccepted := 0 }

/-- sampler.py:252-279, `_get_samples_mcmc` on one rank, as far as the chains are concerned:
`_mc_init` at the given parameters, distribution of the sampling task with
`numChainsPerDevice = lcm(numChains, multipleOf)`, then `_get_samples` on every device. Returns
the new device states, the configurations per device and `globNumSamples`. -/
noncomputable def getSamplesMcmc (c : McConfig S P K) (commSize rank : ℕ) (params : P)
    (numSamples multipleOf : ℕ) (devs : List (ChainState S K)) :
    Except PyErr (List (ChainState S K) × List (List S) × ℕ) := do
  let devs₀ := devs.map (mcInit c params)
  let (n, glob) ← distributeSampling commSize rank numSamples (some devs.length)
    (Nat.lcm c.numChains multipleOf)
  let res := devs₀.map (getSamples c params n)
  return (res.map Prod.fst, res.map Prod.snd, glob)

/-- A history of MCMC `sample` calls on one rank, each with its own parameters, number of samples
and `multipleOf` (sampler.py:183-223). -/
noncomputable def mcRun (c : McConfig S P K) (commSize rank : ℕ) :
    List (ChainState S K) → List (P × ℕ × ℕ) → Except PyErr (List (ChainState S K))
  | devs, [] => .ok devs
  | devs, (params, n, m) :: calls => do
    let (devs', _, _) ← getSamplesMcmc c commSize rank params n m devs
    mcRun c commSize rank devs' calls

/-- sampler.py:232-250, `_get_samples_gen` on one rank, as far as numbers are concerned:
`numChainsPerDevice = multipleOf`, and `self.net.sample(numSamples, …)` produces `numSamples`
configurations per device. Returns samples per device and `globNumSamples`. -/
def getSamplesGenCounts (commSize rank deviceCount numSamples multipleOf : ℕ) :
    Except PyErr (List ℕ × ℕ) := do
  let (n, glob) ← distributeSampling commSize rank numSamples (some deviceCount) multipleOf
  return (List.replicate deviceCount n, glob)

/-- sampler.py:361-372, `acceptance_ratio`, from the counters of all ranks and devices. -/
noncomputable def acceptanceRatio (proposed accepted : List (List ℕ)) : ℝ :=
  let numProp := proposed.flatten.sum
  if 0 < numProp then (accepted.flatten.sum : ℝ) / (numProp : ℝ) else 0

/-- sampler.py:222-223: the weights of MCMC samples, all ranks and devices. -/
noncomputable def mcmcWeights (logProbFactor mu : ℝ) (world : List (List (List ℂ))) :
    Except PyErr (List (List (List ℝ))) := do
  let p := world.map fun rk => rk.map fun dev => dev.map fun logPsi =>
    Real.exp ((1 / logProbFactor - mu) * logPsi.re)
  let nrms ← globalSum p
  return (p.zip nrms).map fun pn => pn.1.map fun dev => dev.map fun x => x / pn.2

/-- sampler.py:250: the weights of directly generated samples on one rank, per device. -/
noncomputable def genWeights (commSize rank deviceCount numSamples multipleOf : ℕ) :
    Except PyErr (List (List ℝ)) := do
  let (ns, glob) ← getSamplesGenCounts commSize rank deviceCount numSamples multipleOf
  return ns.map fun n => List.replicate n (1 / (glob : ℝ))

/-- sampler.py:112-113, 128-129: validation of the constructor arguments. -/
noncomputable def mcValidate (isGenerator hasProposer : Bool) (mu : ℝ) : Except PyErr Unit :=
  if (!isGenerator) && (!hasProposer) then .error .runtimeError
  else if mu < 0 ∨ mu > 2 then .error .valueError
  else .ok ()

/-! ## Random keys as a free splitting tree -/

/-- A PRNG key in the free splitting model: the path of `(n, i)` choices "`i`-th output of
`split(_, n)`" from the user's root key. (sampler.py:133-138) -/
abbrev Key := List (ℕ × ℕ)

/-- `jax.random.split(k, n)[i]`. (sampler.py:137-138, 236, 318, 327) -/
def keySplit (k : Key) (n i : ℕ) : Key := k ++ [(n, i)]

/-- sampler.py:133-138: keys of all devices of a rank at construction. -/
def keysInit (root : Key) (commSize rank deviceCount : ℕ) : List Key :=
  let k := keySplit root commSize rank
  (List.range deviceCount).map fun d => keySplit k deviceCount d

/-- sampler.py:162-169, `set_random_key`: no dependence on the rank. -/
def setRandomKey (root : Key) (_commSize _rank deviceCount : ℕ) : List Key :=
  (List.range deviceCount).map fun d => keySplit root deviceCount d

/-- Keys handled in one `perform_mc_update` with `numChains` chains (sampler.py:318-328):
the keys consumed (one per chain for the proposal, one for the Bernoulli draw) and the carried
key. -/
def mcUpdateKeys (numChains : ℕ) (k : Key) : Key × List Key :=
  let carry := keySplit k (numChains + 1) numChains
  (keySplit carry 2 1,
    (List.range numChains).map (fun i => keySplit k (numChains + 1) i) ++ [keySplit carry 2 0])

/-- Keys handled in `steps` successive updates. (sampler.py:343-344) -/
def mcSweepKeys (numChains : ℕ) : ℕ → Key → Key × List Key
  | 0, k => (k, [])
  | n + 1, k =>
    let (k', used) := mcUpdateKeys numChains k
    let (k'', used') := mcSweepKeys numChains n k'
    (k'', used ++ used')

/-- Keys handled in one MCMC `sample` call on one rank, all devices run `steps` updates.
(sampler.py:276-279) -/
def mcmcCallKeys (numChains steps : ℕ) (ks : List Key) : List Key × List Key :=
  let r := ks.map (mcSweepKeys numChains steps)
  (r.map Prod.fst, (r.map Prod.snd).flatten)

/-- Keys handled in one direct-sampling call (sampler.py:236-247) on one rank: only the first
device's key is split, into `3 D` keys. -/
def genCallKeys (deviceCount : ℕ) (ks : List Key) : List Key × List Key :=
  match ks with
  | [] => ([], [])
  | k :: _ =>
    let t := (List.range (3 * deviceCount)).map fun i => keySplit k (3 * deviceCount) i
    (t.take deviceCount, t.drop deviceCount)

/-- Public operations that touch the keys: a sample call of either kind, or `set_random_key`.
(sampler.py:162-169, 183-223) -/
inductive KeyOp where
  | mcmc (numChains steps : ℕ)
  | gen
  | setKey (root : Key)

/-- One operation on one rank: new device keys and keys consumed.
(sampler.py:162-169, 183-223) -/
def keyStep (commSize rank deviceCount : ℕ) (ks : List Key) : KeyOp → List Key × List Key
  | .mcmc c n => mcmcCallKeys c n ks
  | .gen => genCallKeys deviceCount ks
  | .setKey root => (setRandomKey root commSize rank deviceCount, [])

/-- A history on one rank: final device keys and all keys consumed. (sampler.py:162-223) -/
def keyRun (commSize rank deviceCount : ℕ) (ks : List Key) : List KeyOp → List Key × List Key
  | [] => (ks, [])
  | op :: ops =>
    let st := keyStep commSize rank deviceCount ks op
    let rest := keyRun commSize rank deviceCount st.1 ops
    (rest.1, st.2 ++ rest.2)

/-- All keys consumed by all ranks in a history of operations; every rank performs the same
operations (SPMD) starting from the keys of the constructor. (sampler.py:133-138, 162-223) -/
def worldKeys (root : Key) (commSize deviceCount : ℕ) (ops : List KeyOp) : List Key :=
  (List.range commSize).flatMap fun r =>
    (keyRun commSize r deviceCount (keysInit root commSize r deviceCount) ops).2

end JVMC

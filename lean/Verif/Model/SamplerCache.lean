import Verif.Model.MCSampler

/-!
# Model of the compiled functions kept by `MCSampler` (`jVMC/sampler.py:146-148, 268-279`)

`_get_samples_jitd` maps the number of samples per device to a `pmap`-ed function in which the
sampler net is bound (`partial(self._sweep, net=net)`). `pmap` compiles it once for every value of
the static arguments `numSamples, thermalizationSweeps, sweepSteps, updateProposer, sampleShape`
and shape of the arrays; attributes read inside the traced function (`self.mu`,
sampler.py:322) are constants of the compiled program.
-/

namespace JVMC

variable {S P K : Type}

/-- The static arguments of the `pmap`-ed `_get_samples` (sampler.py:271, 277-279). The update
proposer is identified by a number; the sample shape and the array shapes are fixed by the
constructor, except for the number of chains. -/
structure CompileKey where
  numSamples : ℕ
  thermSweeps : ℕ
  sweepSteps : ℕ
  proposerId : ℕ
  numChains : ℕ
deriving DecidableEq

/-- Public attributes of the sampler that a user may set between calls (sampler.py:108-145);
`proposers` maps the identity of an update proposer to its function. -/
structure SamplerAttrs (S P K : Type) where
  netRe : P → S → ℝ
  mu : ℝ
  thermSweeps : ℕ
  sweepSteps : ℕ
  proposerId : ℕ

/-- What does not change (sampler.py:15-64, 142). -/
structure SamplerEnv (S K : Type) where
  rng : Rng K
  proposers : ℕ → K → S → S
  numChains : ℕ

/-- The configuration described by the current attributes (sampler.py:103-147). -/
def SamplerAttrs.config (e : SamplerEnv S K) (a : SamplerAttrs S P K) : McConfig S P K where
  rng := e.rng
  proposer := e.proposers a.proposerId
  netRe := a.netRe
  mu := a.mu
  thermSweeps := a.thermSweeps
  sweepSteps := a.sweepSteps
  numChains := e.numChains

/-- The caches: the bound net per number of samples (the dictionary `_get_samples_jitd`), and the
value of `mu` per compiled program (inside `pmap`). (sampler.py:147, 268-272, 322) -/
structure SamplerCache (S P : Type) where
  nets : List (ℕ × (P → S → ℝ))
  mus : List (CompileKey × ℝ)

/-- sampler.py:147: nothing is compiled at first. -/
def SamplerCache.empty : SamplerCache S P := ⟨[], []⟩

/-- sampler.py:252-279, `_get_samples_mcmc` with its caches, on one rank: `_mc_init` is not cached
and reads the current attributes, the sweeps run with the bound net and the compiled value of
`mu`. Returns the new cache as well. -/
noncomputable def sampleCached (e : SamplerEnv S K) (cache : SamplerCache S P)
    (a : SamplerAttrs S P K) (commSize rank : ℕ) (params : P) (numSamples multipleOf : ℕ)
    (devs : List (ChainState S K)) :
    Except PyErr (SamplerCache S P × List (ChainState S K) × List (List S) × ℕ) := do
  let devs₀ := devs.map (mcInit (a.config e) params)
  let (n, glob) ← distributeSampling commSize rank numSamples (some devs.length)
    (Nat.lcm e.numChains multipleOf)
  let nets := if (cache.nets.lookup n).isSome then cache.nets else (n, a.netRe) :: cache.nets
  let net := (nets.lookup n).getD a.netRe
  let key : CompileKey := ⟨n, a.thermSweeps, a.sweepSteps, a.proposerId, e.numChains⟩
  let mus := if (cache.mus.lookup key).isSome then cache.mus else (key, a.mu) :: cache.mus
  let mu := (mus.lookup key).getD a.mu
  let res := devs₀.map (getSamples { a.config e with netRe := net, mu := mu } params n)
  return (⟨nets, mus⟩, res.map Prod.fst, res.map Prod.snd, glob)

/-- One step of a history: the attributes the user has set before the call, and the arguments of
`sample` (sampler.py:183-223). -/
structure SampleCall (S P K : Type) where
  attrs : SamplerAttrs S P K
  params : P
  numSamples : ℕ
  multipleOf : ℕ

/-- A history of `sample` calls on one rank with caches; collects the configurations of every call
(sampler.py:183-223, 252-287). -/
noncomputable def runCached (e : SamplerEnv S K) (commSize rank : ℕ) :
    SamplerCache S P → List (ChainState S K) → List (SampleCall S P K) →
      Except PyErr (List (List (List S)))
  | _, _, [] => .ok []
  | cache, devs, q :: qs => do
    let (cache', devs', samples, _) ←
      sampleCached e cache q.attrs commSize rank q.params q.numSamples q.multipleOf devs
    let rest ← runCached e commSize rank cache' devs' qs
    return samples :: rest

end JVMC

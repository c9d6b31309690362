import Verif.Model.DirectSampling
import Verif.Model.MCSampler
import Verif.Spec.Markov

/-!
# Markov chain sampling on all ranks

`_sweep`, `_get_samples`, `_get_samples_mcmc` (sampler.py:252-346) as functions of the random numbers are in
`Model/MCSampler`. Here the random numbers are drawn: the same functions, with distributions as results. Every
update of every chain uses its own key (C20), so all draws are independent. `step ω u` is the update of one chain
with draw `ω` of the proposer and the number `u` that decides about acceptance; `X` is the finite configuration space.
-/

namespace JVMC

/-- sampler.py:315-341 `perform_mc_update` for the chains of a device: all possible states with their probabilities. -/
noncomputable def updateLaw {Ω S : Type} {C : ℕ} (W : Finset Ω) (step : Ω → ℝ → S → S) (X : Finset S)
    (states : Fin C → S) : WDist (Fin C → S) :=
  (Fintype.piFinset fun _ : Fin C => X).toList.map fun t => (t, Spec.transProb W step states t)

/-- sampler.py:343-344 `fori_loop`. -/
noncomputable def iterLaw {A : Type} (f : A → WDist A) : ℕ → A → WDist A
  | 0, a => WDist.pure a
  | n + 1, a => WDist.bind (f a) (iterLaw f n)

/-- sampler.py:300-308: the `lax.scan` that collects samples. -/
noncomputable def collectLaw {A : Type} (sweep : A → WDist A) : ℕ → A → WDist (List A)
  | 0, _ => WDist.pure []
  | n + 1, a => WDist.bind (sweep a) fun a' => WDist.map (a' :: ·) (collectLaw sweep n a')

/-- sampler.py:289-311 `_get_samples` on one device: the configurations. -/
noncomputable def samplesLaw {Ω S : Type} {C : ℕ} (W : Finset Ω) (step : Ω → ℝ → S → S) (X : Finset S)
    (thermSweeps sweepSteps numSamples : ℕ) (states : Fin C → S) : WDist (List S) :=
  WDist.bind (iterLaw (updateLaw W step X) (thermSweeps * sweepSteps) states) fun s =>
    WDist.map (fun configs => (configs.map List.ofFn).flatten)
      (collectLaw (iterLaw (updateLaw W step X) sweepSteps) numSamples s)

/-- sampler.py:252-279 `_get_samples_mcmc` on all ranks and devices: the configurations. `states r` lists the states
of the devices of rank `r`. -/
noncomputable def mcmcConfigWorld {Ω S : Type} (commSize numChains : ℕ) (W : Finset Ω) (step : Ω → ℝ → S → S)
    (X : Finset S) (thermSweeps sweepSteps numSamples multipleOf : ℕ) (states : ℕ → List (Fin numChains → S)) :
    Except PyErr (WDist (World S)) := do
  let ranks ← (List.range commSize).mapM fun r => do
    let (n, _) ← distributeSampling commSize r numSamples (some (states r).length) (Nat.lcm numChains multipleOf)
    return WDist.each ((states r).map (samplesLaw W step X thermSweeps sweepSteps n))
  return WDist.each ranks

/-- sampler.py:221-223: what `sample` returns for given configurations. -/
noncomputable def mcmcSampleOf {C : Type} (logProbFactor mu : ℝ) (logPsi : C → ℂ) (configs : World C) :
    Except PyErr (World (C × ℂ × ℝ)) := do
  let p ← mcmcWeights logProbFactor mu (World.map logPsi configs)
  return List.zipWith (List.zipWith (List.zipWith fun s w => (s, logPsi s, w))) configs p

end JVMC

import Verif.Model.ExactSampler
import Verif.Model.Measure
import Verif.Model.Operator
import Verif.Model.Tdvp

/-!
# Composition of sampler, operator and solver

`sampler.sample()` returns three arrays (configurations, `log ψ`, weights) of the same shape; a world
of triples stands for them.
-/

namespace JVMC

variable {S : Type}

/-! ## The exact sampler, with configurations -/

/-- sampler.py:413-432 `get_basis` on one rank: per device the configurations (with the padding of the
last device) and whether `_compute_probabilities` (sampler.py:471-476) keeps their weight. -/
def exactEntries (lDim N deviceCount myNumStates myFirstState : ℕ) : List (List (Bool × List ℕ)) :=
  List.zipWith (fun (n : ℤ) (dev : List ℕ) =>
      List.zipWith (fun (j x : ℕ) => (decide ((j : ℤ) < n), makeState lDim N x))
        (List.range dev.length) dev)
    (numStatesPerDevice myNumStates deviceCount) (intReps myFirstState myNumStates deviceCount)

/-- sampler.py:402-411, 413-432: the basis of all ranks. -/
def exactBasisWorld (lDim N deviceCount commSize : ℕ) :
    Except PyErr (World (Bool × List ℕ)) :=
  (List.range commSize).mapM fun r => do
    let (mine, glob) ← distributeSampling commSize r (lDim ^ N) none 1
    return exactEntries lDim N deviceCount mine (firstSampleId commSize r glob)

/-- sampler.py:504-518 `ExactSampler.sample`: configurations, `log ψ` and probabilities of all ranks
and devices, and the new `lastNorm`. `decode` is `reshape(sampleShape)`. -/
noncomputable def exactSampleWorld (lDim N deviceCount commSize : ℕ) (decode : List ℕ → S)
    (logProbFactor lastNorm : ℝ) (logPsi : S → ℂ) : Except PyErr (ℝ × World (S × ℂ × ℝ)) := do
  let basis ← exactBasisWorld lDim N deviceCount commSize
  let (ln, p) ← exactSample logProbFactor lastNorm
    (World.map (fun e => (e.1, logPsi (decode e.2))) basis)
  return (ln, List.zipWith (List.zipWith (List.zipWith fun e w =>
    (decode e.2, logPsi (decode e.2), w))) basis p)

/-! ## Local estimators on all ranks -/

/-- base.py:166-192 `get_O_loc(samples, psi, logPsiS)` on all ranks and devices. A result `None`
(batched evaluation without samples) cannot be indexed: `TypeError` in util.py:146 and stats.py:204.
Simplification: `get_s_primes` pads to the largest number of non-zero elements on the device, not on
all devices of the rank; padding elements are zero. -/
noncomputable def oLocWorld (kernel : S → List (S × ℂ)) (psi : Net S) (zeroCfg : S)
    (elocBatchSize : ℤ) (samples : World (S × ℂ × ℝ)) : Except PyErr (World (ℝ × (Fin 1 → ℂ))) :=
  samples.mapM fun rk => rk.mapM fun dev =>
    match getOLoc kernel psi zeroCfg elocBatchSize (dev.map fun x => x.1)
        (some (dev.map fun x => x.2.1)) with
    | none => .error .typeError
    | some o => .ok (List.zipWith (fun x v => (x.2.2, fun _ => v)) dev o)

/-- util.py:128-155 `measure` for one operator: sample, evaluate, average. -/
noncomputable def measureOp (kernel : S → List (S × ℂ)) (psi : Net S) (zeroCfg : S)
    (elocBatchSize : ℤ) (numSamples : Option ℕ) (samples : World (S × ℂ × ℝ)) :
    Except PyErr (List MeasResult) := do
  let o ← oLocWorld kernel psi zeroCfg elocBatchSize samples
  measureOne numSamples o

/-- tdvp.py:266-284 of `__call__`, on rank `r`: local energies and gradients of the samples become
`SampledObs` objects, which are passed to `solve`. `grads` is `psi.gradients` on one configuration. -/
noncomputable def tdvpSolveSamples {n : ℕ} (cfg : TdvpCfg n) (r : ℕ) (kernel : S → List (S × ℂ))
    (psi : Net S) (zeroCfg : S) (elocBatchSize : ℤ) (grads : S → Fin (n + 1) → ℂ)
    (samples : World (S × ℂ × ℝ)) : TdvpFn n (SolveRes n) := fun at₀ => do
  let o ← oLocWorld kernel psi zeroCfg elocBatchSize samples
  let E ← SObs.create o
  let G ← SObs.create (World.map (fun x => (x.2.2, grads x.1)) samples)
  tdvpSolve cfg r (some (E, G)) at₀

end JVMC

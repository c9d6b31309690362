import Mathlib.Analysis.Real.Sqrt
import Mathlib.Data.ZMod.Basic
import Mathlib.Algebra.Group.Fin.Basic
import Verif.Model.Stats

/-!
# Model of `measure` (`jVMC/util/util.py:91-157`) and `measure_povm` (`jVMC/operator/povm.py:16-49`)

The sampling and the evaluation of the local estimators are modelled elsewhere (`MCSampler`,
`Operator`); here `world` holds the weights `p` and the values `Oloc` of all ranks, devices, samples.
-/

namespace JVMC

/-- The entries `mean`, `variance`, `MC_error` of a result dictionary. (util.py:152-155) -/
structure MeasResult where
  mean : ℝ
  variance : ℝ
  mcError : ℝ

/-- `x / jnp.sqrt(sampler.get_last_number_of_samples())`; the exact sampler reports infinity
(sampler.py:523-524), here `none`. -/
noncomputable def divSqrtN (x : ℝ) : Option ℕ → ℝ
  | none => 0
  | some n => x / Real.sqrt n

/-- util.py:139-155: what `measure` reports for one operator, on every rank. Simplification: the real
part is taken before the square root of the variance (its imaginary part is zero). -/
noncomputable def measureOne (numSamples : Option ℕ) (world : World (ℝ × (Fin 1 → ℂ))) :
    Except PyErr (List MeasResult) := do
  let means ← globalMean world
  let variances ← globalVariance world
  return List.zipWith (fun m v =>
    ⟨(m 0).re, (v 0).re, divSqrtN (Real.sqrt (v 0).re) numSamples⟩) means variances

/-- povm.py:35-47: what `measure_povm` reports for one observable and for its correlators, on every
rank. Values are real. -/
noncomputable def measurePovm (numSamples : Option ℕ) (world : World (ℝ × (Fin 1 → ℂ)))
    (corrs : List (World (ℝ × (Fin 1 → ℂ)))) :
    Except PyErr (List MeasResult × List (List MeasResult)) := do
  let means ← globalMean world
  let variances ← globalVariance world
  let main : List MeasResult := List.zipWith (fun m v =>
    ⟨(m 0).re, (v 0).re, divSqrtN (v 0).re numSamples⟩) means variances
  let cs ← corrs.mapM fun w => do
    let cm ← globalMean w
    let cv ← globalVariance w
    return List.zipWith (fun (r : MeasResult) (x : (Fin 1 → ℂ) × (Fin 1 → ℂ)) =>
      (⟨(x.1 0).re - r.mean ^ 2, (x.2 0).re, divSqrtN r.variance numSamples⟩ : MeasResult))
      main (cm.zip cv)
  return (main, cs)

/-- povm.py:255-259, 318-324 `evaluate_observable` in one dimension, for one sample: the site average
of the observable and its correlators for all distances. -/
noncomputable def evaluateObservable1D {L : ℕ} [NeZero L] (o : Fin 4 → ℝ) (s : Fin L → Fin 4) :
    ℝ × (Fin L → ℝ) :=
  ((∑ i, o (s i)) / L, fun k => (∑ i, o (s i) * o (s (i - k))) / L)

/-- povm.py:325-331 `evaluate_observable` in two dimensions, for one sample on a single device, whose
`L * L` entries are read as a square (row-major `reshape`): correlators are taken along the first
axis. -/
noncomputable def evaluateObservable2D {L : ℕ} [NeZero L] (o : Fin 4 → ℝ)
    (s : Fin L × Fin L → Fin 4) : ℝ × (Fin L → ℝ) :=
  ((∑ i, o (s i)) / (L * L : ℕ),
    fun k => (∑ i : Fin L × Fin L, o (s i) * o (s (i.1 - k, i.2))) / (L * L : ℕ))

end JVMC

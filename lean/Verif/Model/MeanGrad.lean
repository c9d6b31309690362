import Verif.Model.Stats
import Verif.Model.Vqs

/-!
# Model of `SampledObs` with an estimator function (`jVMC/stats.py`)

`est` is the function handed to the constructor. Without one, the methods below raise.
-/

namespace JVMC

variable {C : Type}

/-- stats.py:110-133, 185-188: `_estimator_grad` on one configuration. `flat_grad` puts the leaves
side by side; a leaf of complex parameters contributes the real and then the negative imaginary parts
of `jax.grad`. -/
noncomputable def estimatorGrad (est : Params → ℂ) : Params → List ℂ
  | .real L => flatGradient (fun M => est (.real M)) L
  | .cpx L => flatGradientCpxNonholo (fun M => est (.cpx M)) L

/-- stats.py:227: `global_sum(x[None, ...])` for an array `x` with one entry per device. The array
handed to `pmap` has one row, which must be the number of devices; the devices are summed as if they
were samples. -/
def globalSumNone {A : Type} [AddCommMonoid A] (world : List (List A)) : Except PyErr (List A) := do
  let locals ← world.mapM fun devs =>
    if devs.length = 1 then pyHead (sumUpPmapd [devs]) else .error .valueError
  return allreduceSum locals

/-- A `SampledObs` with an estimator: `_weights` and `_configs` (paired sample by sample), and the
statistics of the last evaluated observations (stats.py:166-205). -/
structure EstObs (C : Type) where
  samples : World (ℝ × C)
  obs : Option (SObs (Fin 1))

/-- stats.py:212-214, 223-224: the estimator is evaluated on the configurations and replaces the
observations. -/
noncomputable def EstObs.evaluate (o : EstObs C) (est : Params → C → ℂ) (params : Params) :
    Except PyErr (SObs (Fin 1)) :=
  SObs.create (World.map (fun s => (s.1, fun _ => est params s.2)) o.samples)

/-- stats.py:208-216 `mean(params)` on all ranks. -/
noncomputable def EstObs.mean (o : EstObs C) (est : Params → C → ℂ) (params : Option Params) :
    Except PyErr (EstObs C × Option (List (Fin 1 → ℂ))) :=
  match params with
  | none => return (o, o.obs.map SObs.mean)
  | some p => do
    let obs ← o.evaluate est p
    return ({ o with obs := some obs }, some obs.mean)

/-- The sum of two vectors of lengths `n` and `m`, with broadcasting (stats.py:231). -/
def addBroadcast (n m : ℕ) (a b : ℕ → ℂ) : Except PyErr (List ℂ) :=
  if n = m then .ok ((List.range n).map fun i => a i + b i)
  else if n = 1 then .ok ((List.range m).map fun i => a 0 + b i)
  else if m = 1 then .ok ((List.range n).map fun i => a i + b 0)
  else .error .broadcastError

/-- stats.py:219-231 `mean_and_grad(psi, params)` on all ranks. `psiGrad` is `psi.gradients` on one
configuration, for the parameters `psi` has at the time of the call, `n` the number of its entries. -/
noncomputable def EstObs.meanAndGrad (o : EstObs C) (est : Params → C → ℂ) (params : Params)
    (psiGrad : C → List ℂ) (n : ℕ) :
    Except PyErr (EstObs C × List ((Fin 1 → ℂ) × List ℂ)) := do
  let obs ← o.evaluate est params
  let obsGradMean ← globalSumNone (List.map (fun rk => List.map (fun dev =>
    (List.map (fun s : ℝ × C => fun i : ℕ =>
      (s.1 : ℂ) * (estimatorGrad (fun p => est p s.2) params).getD i 0) dev).sum) rk) o.samples)
  let psiObs ← SObs.create (World.map (fun s => (s.1, fun i : ℕ =>
    ((2 * ((psiGrad s.2).getD i 0).re : ℝ) : ℂ))) o.samples)
  let cov ← psiObs.covar obs
  let grads ← (cov.zip obsGradMean).mapM fun x =>
    addBroadcast n (flattenParams params).length (fun i => x.1 i 0) x.2
  return ({ o with obs := some obs }, obs.mean.zip grads)

end JVMC

import Mathlib.Analysis.Real.Sqrt
import Mathlib.Data.Complex.BigOperators
import Mathlib.LinearAlgebra.Complex.Module
import Verif.Model.Mpi

/-!
# Model of `jVMC/stats.py`: `SampledObs`

An object exists on every rank; one value of `SObs` describes the objects of all ranks. The rows of
`_data` are functions on an index type `ι` (`Fin 1` for scalar observations, stats.py:200-201; a
product type for the matrices that `covar_data` produces). Numbers are exact. Divisions by zero, which
give NaN in every component of the row concerned, are kept as `none`. Weights are not negative.
-/

namespace JVMC

variable {ι κ μ : Type}

/-- Something for every sample: ranks, devices of a rank, samples on a device.
(stats.py:50-87) -/
abbrev World (A : Type) := List (List (List A))

/-- A `pmap` over devices of a `vmap` over samples, on all ranks. (stats.py:50-87) -/
def World.map {A B : Type} (f : A → B) (w : World A) : World B :=
  List.map (fun rk => List.map (fun dev => List.map f dev) rk) w

/-- `_weights` and `_data` (paired sample by sample) and `_mean` (one per rank).
(stats.py:147-205) -/
structure SObs (ι : Type) where
  rows : World (ℝ × (ι → ℂ))
  mean : List (ι → ℂ)

/-- stats.py:51 `_data_prep` on all ranks: `sqrt(w) * (d - mean)`. -/
noncomputable def dataPrep (world : World (ℝ × (ι → ℂ))) (means : List (ι → ℂ)) :
    World (ℝ × (ι → ℂ)) :=
  List.zipWith (fun rk m => rk.map fun dev => dev.map fun s =>
    (s.1, fun i => (Real.sqrt s.1 : ℂ) * (s.2 i - m i))) world means

/-- stats.py:147-205: `SampledObs(observations, weights)`, i.e. `_compute_data_and_mean`. The kernel
`_mean_helper` (line 50) is the same as in `mpi_wrapper`. -/
noncomputable def SObs.create (world : World (ℝ × (ι → ℂ))) : Except PyErr (SObs ι) := do
  let means ← globalMean world
  return ⟨dataPrep world means, means⟩

/-- Two arrays used together by `pmap`, `tensordot`, `vmap` must have equally many entries.
(stats.py:52-68) -/
def zipE {A B : Type} (a : List A) (b : List B) : Except PyErr (List (A × B)) :=
  if a.length = b.length then .ok (a.zip b) else .error .typeError

/-- The samples of two objects, side by side. (stats.py:52-68) -/
def zipWorld {A B : Type} (a : World A) (b : World B) : Except PyErr (World (A × B)) := do
  let ranks ← zipE a b
  ranks.mapM fun rk => do
    let devs ← zipE rk.1 rk.2
    devs.mapM fun dev => zipE dev.1 dev.2

/-- stats.py:52-58, 235-245 `covar`. -/
def SObs.covar (a : SObs ι) (b : SObs κ) : Except PyErr (List (ι → κ → ℂ)) := do
  let z ← zipWorld a.rows b.rows
  globalSum (List.map (fun rk => List.map (fun dev =>
    [(List.map (fun s : (ℝ × (ι → ℂ)) × (ℝ × (κ → ℂ)) => fun i k =>
      (starRingEnd ℂ) (s.1.2 i) * s.2.2 k) dev).sum]) rk) z)

/-- stats.py:248-252 `var`. -/
def SObs.var (a : SObs ι) : Except PyErr (List (ι → ℝ)) :=
  globalSum (a.rows.map fun s => fun i => Complex.normSq (s.2 i))

/-- `SampledObs` of data in which some rows may be NaN (`none`): one such row makes the mean NaN in
every component and with it all of `_data`. (stats.py:147-205) -/
noncomputable def SObs.createNan (world : World (ℝ × Option (ι → ℂ))) :
    Except PyErr (Option (SObs ι)) := do
  let o ← SObs.create (world.map fun s => (s.1, s.2.getD fun _ => 0))
  if world.flatten.flatten.all fun s => s.2.isSome then return some o else return none

/-- stats.py:68, 255-265 `covar_data`: `outer(conj(a), b) / w` for every sample. -/
noncomputable def SObs.covarData (a : SObs ι) (b : SObs κ) :
    Except PyErr (Option (SObs (ι × κ))) := do
  let z ← zipWorld a.rows b.rows
  SObs.createNan (World.map (fun s => (s.1.1,
    if s.1.1 = 0 then none
    else some fun ik : ι × κ => (starRingEnd ℂ) (s.1.2 ik.1) * s.2.2 ik.2 / (s.1.1 : ℂ))) z)

/-- stats.py:59-67, 268-279 `covar_var`: `sum |outer(conj(a), b)|**2 / w - |covar|**2`. -/
noncomputable def SObs.covarVar (a : SObs ι) (b : SObs κ) :
    Except PyErr (Option (List (ι → κ → ℝ))) := do
  let z ← zipWorld a.rows b.rows
  let second ← globalSum (List.map (fun rk => List.map (fun dev =>
    [(List.map (fun s : (ℝ × (ι → ℂ)) × (ℝ × (κ → ℂ)) => fun i k =>
      Complex.normSq ((starRingEnd ℂ) (s.1.2 i) * s.2.2 k) / s.1.1) dev).sum]) rk) z)
  let cov ← a.covar b
  if z.flatten.flatten.all fun s => decide (s.1.1 ≠ 0) then
    return some (List.zipWith (fun x c => fun i k => x i k - Complex.normSq (c i k)) second cov)
  else return none

/-- stats.py:69-74: the observations, recovered as `data / sqrt(w) + mean`. -/
noncomputable def SObs.recover (a : SObs ι) : World (ℝ × Option (ι → ℂ)) :=
  List.zipWith (fun rk m => rk.map fun dev => dev.map fun s =>
    (s.1, if s.1 = 0 then none else some fun i => s.2 i / (Real.sqrt s.1 : ℂ) + m i)) a.rows a.mean

/-- stats.py:69-74, 282-292 `transform(nonLinearFun=f)`: `f` acts on the array of a device. -/
noncomputable def SObs.transform (a : SObs ι) (f : List (Option (ι → ℂ)) → List (Option (κ → ℂ))) :
    Except PyErr (Option (SObs κ)) := do
  let obs ← a.recover.mapM fun rk => rk.mapM fun dev => zipE (dev.map Prod.fst) (f (dev.map Prod.snd))
  SObs.createNan obs

/-- stats.py:75-83, 282-292 `transform(nonLinearFun=f, linearFun=v)` for matrix-valued observations
(as produced by `covar_data`): `matmul(v, f(x))` acts on the first index of every sample. -/
noncomputable def SObs.transformLinear [Fintype ι] (a : SObs (ι × κ)) (v : μ → ι → ℂ)
    (f : ℂ → ℂ) : Except PyErr (Option (SObs (μ × κ))) :=
  a.transform fun dev => dev.map fun row => row.map fun x => fun mk : μ × κ =>
    ∑ i, v mk.1 i * f (x (i, mk.2))

/-- stats.py:75-83, 282-292 `transform(linearFun=v)` for vector-valued observations: the array of a
device is then a matrix (samples × components) and `matmul(v, x)` contracts `v` with the *samples*. -/
noncomputable def SObs.transformLinearVec (a : SObs ι) (v : List (List ℂ)) :
    Except PyErr (Option (SObs ι)) := do
  let obs ← a.recover.mapM fun rk => rk.mapM fun dev => do
    if ∀ row ∈ v, row.length = dev.length then
      zipE (dev.map Prod.fst) (v.map fun row =>
        if dev.all fun s => s.2.isSome then
          some fun i => (List.zipWith (fun c (s : ℝ × Option (ι → ℂ)) => c * (s.2.getD fun _ => 0) i)
            row dev).sum
        else none)
    else .error .typeError
  SObs.createNan obs

/-- stats.py:84, 295-307 `select`. -/
def SObs.select (a : SObs ι) (ixs : κ → ι) : SObs κ :=
  ⟨a.rows.map fun s => (s.1, fun k => s.2 (ixs k)), List.map (fun m => fun k => m (ixs k)) a.mean⟩

/-- Python's `slice(start, stop, step).indices(n)`, as a list of positions; `step` not zero.
(stats.py:85, 310-329) -/
def sliceIndices (start stop : Option ℤ) (step : ℤ) (n : ℕ) : List ℕ :=
  let lower : ℤ := if step < 0 then -1 else 0
  let upper : ℤ := if step < 0 then (n : ℤ) - 1 else n
  let fix (x : Option ℤ) (default : ℤ) : ℤ :=
    match x with
    | none => default
    | some v => if v < 0 then max (v + n) lower else min v upper
  let b := fix start (if step < 0 then upper else lower)
  let e := fix stop (if step < 0 then lower else upper)
  let count := if step < 0 then (b - e + (-step) - 1) / (-step) else (e - b + step - 1) / step
  (List.range count.toNat).map fun k : ℕ => (b + k * step).toNat

/-- `x[slice(start, stop, step)]` (stats.py:85). -/
def sliceList {A : Type} (start stop step : Option ℤ) (l : List A) : Except PyErr (List A) :=
  if step = some 0 then .error .valueError
  else .ok ((sliceIndices start stop (step.getD 1) l.length).filterMap fun i => l[i]?)

/-- stats.py:310-329 `subset`. The result is NaN if the selected weights add up to zero. -/
noncomputable def SObs.subset (a : SObs ι) (start stop step : Option ℤ) :
    Except PyErr (Option (SObs ι)) := do
  let sel ← a.rows.mapM fun rk => rk.mapM fun dev => sliceList start stop step dev
  let norms ← globalSum (World.map (fun s => s.1) sel)
  let rows := List.zipWith (fun rk (n : ℝ) => rk.map fun dev => dev.map fun s =>
    ((s.1 / n, fun i => s.2 i / (Real.sqrt n : ℂ)) : ℝ × (ι → ℂ))) sel norms
  let shifts ← globalSum (List.map (fun rk => List.map (fun dev =>
    [(List.map (fun s : ℝ × (ι → ℂ) => fun i => (Real.sqrt s.1 : ℂ) * s.2 i) dev).sum]) rk) rows)
  let means := List.zipWith (fun x m => fun i => x i + m i) shifts a.mean
  let rows' := List.zipWith (fun rk (m : (ι → ℂ) × (ι → ℂ)) => rk.map fun dev => dev.map fun s =>
    (s.1, fun i => s.2 i + (Real.sqrt s.1 : ℂ) * (m.1 i - m.2 i))) rows (a.mean.zip means)
  if norms.all fun n => decide (n ≠ 0) then return some ⟨rows', means⟩ else return none

/-- stats.py:332-336 `tangent_kernel`: `X X^†` for the matrix `X` of all rows of `_data`, on every
rank. -/
def SObs.tangentKernel [Fintype ι] (a : SObs ι) : List (List (List ℂ)) :=
  (gather (a.rows.map Prod.snd)).map fun all =>
    all.map fun x => all.map fun y => ∑ i, x i * (starRingEnd ℂ) (y i)

end JVMC

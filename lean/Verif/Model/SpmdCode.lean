import Verif.Model.Spmd
import Verif.Model.ExactSampler
import Verif.Model.MCSampler
import Verif.Model.Measure
import Verif.Model.MinSR
import Verif.Model.OutputManager
import Verif.Model.BranchFree
import Verif.Model.Stepper

/-!
# What one rank executes

The same functions as in `Mpi`, `ExactSampler`, `MCSampler`, `Stats`, `Measure`, `Tdvp`, `MinSR` and
`OutputManager`, but as programs of a single rank: the argument is the data of that rank, the result
what the function returns on that rank.
-/

namespace JVMC

variable {ι κ μ : Type}

/-! ## `jVMC/mpi_wrapper.py` -/

/-- mpi_wrapper.py:114-147 `global_sum`. -/
def globalSumR {A : Type} [AddCommMonoid A] [MpiBuf A] (data : List (List A)) : Prog A := do
  let localSum ← Prog.lift (pyHead (sumUpPmapd data))
  allreduceR localSum

/-- mpi_wrapper.py:150-174 `global_mean`. -/
def globalMeanR {A : Type} [AddCommMonoid A] [SMul ℝ A] [MpiBuf A] (data : List (List (ℝ × A))) :
    Prog A :=
  globalSumR (meanHelper data)

/-- mpi_wrapper.py:177-217 `global_variance`. -/
noncomputable def globalVarianceR [MpiBuf (ι → ℂ)] (data : List (List (ℝ × (ι → ℂ)))) : Prog (ι → ℂ) := do
  let mean ← globalMeanR data
  let localSum ← Prog.lift (pyHead (sumSqPmapd mean data))
  allreduceR localSum

/-- mpi_wrapper.py:220-243 `global_covariance`. -/
def globalCovarianceR [MpiBuf (ι → ι → ℂ)] (data : List (List (ℝ × (ι → ℂ)))) : Prog (ι → ι → ℂ) :=
  globalSumR (covHelper data)

/-- mpi_wrapper.py:278-292 `gather`. -/
def gatherR {A : Type} [AddCommMonoid A] [MpiBuf A] (data : List (List A)) : Prog (List A) := do
  let res ← allgatherR data.flatten
  return res.flatten

/-- mpi_wrapper.py:246-275 `bcast_unknown_size`, on rank `rank`; `data` is the array and whether its
type is `float64`, on the root. -/
noncomputable def bcastUnknownSizeR (rank root : ℕ) (d : RootData) : Prog (List ℝ) := do
  if rank = root then
    if d.isFloat64 = false then Prog.raise .typeError
    else
      let _ ← bcastR (A := ℕ) root [d.data.length]
      let _ ← bcastR (A := ℝ) root d.data
      return d.data
  else
    let dim ← bcastR (A := ℕ) root []
    let buf ← bcastR (A := ℝ) root []
    return buf.take (dim.headD 0)

/-! ## `jVMC/sampler.py` -/

/-- sampler.py:511-518: the end of `ExactSampler.sample`; the new `lastNorm` and the probabilities. -/
noncomputable def exactSampleR (logProbFactor lastNorm : ℝ) (entries : List (List ExactEntry)) :
    Prog (ℝ × List (List ℝ)) := do
  let p := entries.map fun dev => dev.map (exactUnnormalised logProbFactor lastNorm)
  let nrm ← globalSumR p
  return (lastNorm + logProbFactor * Real.log nrm, p.map fun dev => dev.map fun x => x / nrm)

/-- sampler.py:222-223: the weights of MCMC samples. -/
noncomputable def mcmcWeightsR (logProbFactor mu : ℝ) (logPsi : List (List ℂ)) :
    Prog (List (List ℝ)) := do
  let p := logPsi.map fun dev => dev.map fun z => Real.exp ((1 / logProbFactor - mu) * z.re)
  let nrm ← globalSumR p
  return p.map fun dev => dev.map fun x => x / nrm

/-- sampler.py:361-372 `acceptance_ratio`; the counters are arrays over devices (and over a batch of
length one). The second reduction only happens if the first one is not zero. -/
noncomputable def acceptanceRatioR (proposed accepted : List ℕ) : Prog ℝ := do
  let numProp ← globalSumR (proposed.map fun x => [x])
  if 0 < numProp then
    let numAcc ← globalSumR (accepted.map fun x => [x])
    return (numAcc : ℝ) / (numProp : ℝ)
  else return 0

/-! ## `jVMC/stats.py` -/

/-- The `SampledObs` object of one rank. (stats.py:147-205) -/
structure RObs (ι : Type) where
  rows : List (List (ℝ × (ι → ℂ)))
  mean : ι → ℂ

/-- stats.py:51 `_data_prep`. -/
noncomputable def dataPrepR (data : List (List (ℝ × (ι → ℂ)))) (m : ι → ℂ) :
    List (List (ℝ × (ι → ℂ))) :=
  data.map fun dev => dev.map fun s => (s.1, fun i => (Real.sqrt s.1 : ℂ) * (s.2 i - m i))

/-- stats.py:147-205 `SampledObs(observations, weights)`. -/
noncomputable def RObs.create [MpiBuf (ι → ℂ)] (data : List (List (ℝ × (ι → ℂ)))) :
    Prog (RObs ι) := do
  let m ← globalMeanR data
  return ⟨dataPrepR data m, m⟩

/-- The samples of two objects, side by side. (stats.py:52-68) -/
def zipRank {A B : Type} (a : List (List A)) (b : List (List B)) : Except PyErr (List (List (A × B))) := do
  let devs ← zipE a b
  devs.mapM fun dev => zipE dev.1 dev.2

/-- stats.py:52-58, 235-245 `covar`. -/
def RObs.covar [MpiBuf (ι → κ → ℂ)] (a : RObs ι) (b : RObs κ) : Prog (ι → κ → ℂ) := do
  let z ← Prog.lift (zipRank a.rows b.rows)
  globalSumR (List.map (fun dev => [(List.map (fun s : (ℝ × (ι → ℂ)) × (ℝ × (κ → ℂ)) => fun i k =>
    (starRingEnd ℂ) (s.1.2 i) * s.2.2 k) dev).sum]) z)

/-- stats.py:248-252 `var`. -/
def RObs.var [MpiBuf (ι → ℝ)] (a : RObs ι) : Prog (ι → ℝ) :=
  globalSumR (a.rows.map fun dev => dev.map fun s => fun i => Complex.normSq (s.2 i))

/-- `SampledObs` of data in which some rows may be NaN (`none`): the reduction of the mean is then NaN
on all ranks, whichever rank has that row. (stats.py:147-205) -/
noncomputable def RObs.createNan [MpiBuf (ι → ℂ)] (data : List (List (ℝ × Option (ι → ℂ)))) :
    Prog (Option (RObs ι)) := do
  let rows := data.map fun dev => dev.map fun s => (s.1, s.2.getD fun _ => 0)
  let localSum ← Prog.lift (pyHead (sumUpPmapd (meanHelper rows)))
  let m ← allreduceNan (if data.flatten.all fun s => s.2.isSome then some localSum else none)
  return m.map fun m => ⟨dataPrepR rows m, m⟩

/-- stats.py:68, 255-265 `covar_data`. -/
noncomputable def RObs.covarData [MpiBuf (ι × κ → ℂ)] (a : RObs ι) (b : RObs κ) :
    Prog (Option (RObs (ι × κ))) := do
  let z ← Prog.lift (zipRank a.rows b.rows)
  RObs.createNan (z.map fun dev => dev.map fun s => (s.1.1,
    if s.1.1 = 0 then none
    else some fun ik : ι × κ => (starRingEnd ℂ) (s.1.2 ik.1) * s.2.2 ik.2 / (s.1.1 : ℂ)))

/-- stats.py:69-74: the observations, recovered as `data / sqrt(w) + mean`. -/
noncomputable def RObs.recover (a : RObs ι) : List (List (ℝ × Option (ι → ℂ))) :=
  a.rows.map fun dev => dev.map fun s =>
    (s.1, if s.1 = 0 then none else some fun i => s.2 i / (Real.sqrt s.1 : ℂ) + a.mean i)

/-- stats.py:69-74, 282-292 `transform(nonLinearFun=f)`. -/
noncomputable def RObs.transform [MpiBuf (κ → ℂ)] (a : RObs ι)
    (f : List (Option (ι → ℂ)) → List (Option (κ → ℂ))) : Prog (Option (RObs κ)) := do
  let obs ← Prog.lift (a.recover.mapM fun dev => zipE (dev.map Prod.fst) (f (dev.map Prod.snd)))
  RObs.createNan obs

/-- stats.py:75-83, 282-292 `transform(nonLinearFun=f, linearFun=v)`, matrix-valued observations. -/
noncomputable def RObs.transformLinear [Fintype ι] [MpiBuf (μ × κ → ℂ)] (a : RObs (ι × κ))
    (v : μ → ι → ℂ) (f : ℂ → ℂ) : Prog (Option (RObs (μ × κ))) :=
  a.transform fun dev => dev.map fun row => row.map fun x => fun mk : μ × κ =>
    ∑ i, v mk.1 i * f (x (i, mk.2))

/-- stats.py:310-329 `subset`. If the selected weights add up to zero, the second reduction is one of
NaNs. -/
noncomputable def RObs.subset [MpiBuf (ι → ℂ)] (a : RObs ι) (start stop step : Option ℤ) :
    Prog (Option (RObs ι)) := do
  let sel ← Prog.lift (a.rows.mapM fun dev => sliceList start stop step dev)
  let norm ← globalSumR (sel.map fun dev => dev.map fun s => s.1)
  let rows : List (List (ℝ × (ι → ℂ))) := sel.map fun dev => dev.map fun s =>
    (s.1 / norm, fun i => s.2 i / (Real.sqrt norm : ℂ))
  let localSum ← Prog.lift (pyHead (sumUpPmapd (List.map (fun dev =>
    [(List.map (fun s : ℝ × (ι → ℂ) => fun i => (Real.sqrt s.1 : ℂ) * s.2 i) dev).sum]) rows)))
  let shift ← allreduceNan (if norm = 0 then none else some localSum)
  return shift.map fun x =>
    let m : ι → ℂ := fun i => x i + a.mean i
    ⟨rows.map fun dev => dev.map fun s =>
      (s.1, fun i => s.2 i + (Real.sqrt s.1 : ℂ) * (a.mean i - m i)), m⟩

/-- stats.py:332-336 `tangent_kernel`. -/
def RObs.tangentKernel [Fintype ι] [MpiBuf (ι → ℂ)] (a : RObs ι) : Prog (List (List ℂ)) := do
  let all ← gatherR (a.rows.map fun dev => dev.map Prod.snd)
  return all.map fun x => all.map fun y => ∑ i, x i * (starRingEnd ℂ) (y i)

/-! ## `jVMC/util/util.py`, `jVMC/operator/povm.py` -/

/-- util.py:139-155: what `measure` does for one operator. -/
noncomputable def measureOneR (numSamples : Option ℕ) (data : List (List (ℝ × (Fin 1 → ℂ)))) :
    Prog MeasResult := do
  let m ← globalMeanR data
  let v ← globalVarianceR data
  return ⟨(m 0).re, (v 0).re, divSqrtN (Real.sqrt (v 0).re) numSamples⟩

/-- util.py:128-150: `measure` for several operators, one after the other; `data` are the local values
of each operator on this rank. -/
noncomputable def measureManyR (numSamples : Option ℕ) (data : List (List (List (ℝ × (Fin 1 → ℂ))))) :
    Prog (List MeasResult) :=
  data.mapM (measureOneR numSamples)

/-- povm.py:35-47: what `measure_povm` does for one observable and its correlators. -/
noncomputable def measurePovmR (numSamples : Option ℕ) (data : List (List (ℝ × (Fin 1 → ℂ)))) :
    List (List (List (ℝ × (Fin 1 → ℂ)))) → Prog (MeasResult × List MeasResult)
  | corrs => do
    let m ← globalMeanR data
    let v ← globalVarianceR data
    let main : MeasResult := ⟨(m 0).re, (v 0).re, divSqrtN (v 0).re numSamples⟩
    let cs ← corrs.mapM fun w => do
      let cm ← globalMeanR w
      let cv ← globalVarianceR w
      return (⟨(cm 0).re - main.mean ^ 2, (cv 0).re, divSqrtN main.variance numSamples⟩ : MeasResult)
    return (main, cs)

/-! ## `jVMC/util/tdvp.py` -/

variable {n : ℕ}

/-- `(Eloc, gradients)` on one rank. (tdvp.py:306-324) -/
abbrev TdvpDataR (n : ℕ) := Flt (RObs (Fin 1) × RObs (Fin (n + 1)))

/-- tdvp.py:134-148 `get_tdvp_equation`. With NaN data the same reductions take place. -/
noncomputable def getTdvpEquationR (cfg : TdvpCfg n) (data : TdvpDataR n) (at₀ : TdvpAttrs n) :
    Prog (Flt (Matrix (Fin (n + 1)) (Fin (n + 1)) ℂ × (Fin (n + 1) → ℂ)) × TdvpAttrs n) :=
  match data with
  | none => do
    let _ ← allreduceNan (none : Option (Fin 1 → ℝ))
    let _ ← allreduceNan (none : Option (Fin (n + 1) → Fin 1 → ℂ))
    let _ ← allreduceNan (none : Option (Fin (n + 1) → Fin (n + 1) → ℂ))
    return (none, { at₀ with eqn := some none })
  | some (Eloc, gradients) => do
    let var ← Eloc.var
    let force ← gradients.covar Eloc
    let F0 : Fin (n + 1) → ℂ := fun i => (-cfg.rhsPrefactor) * force i 0
    let F := fun i => cfg.q (F0 i)
    let S0 ← gradients.covar gradients
    let S : Matrix (Fin (n + 1)) (Fin (n + 1)) ℂ := Matrix.of fun i j => cfg.q (S0 i j)
    let S' := if cfg.diagonalShift > 1e-10 then
        S + Matrix.diagonal (fun i => (cfg.diagonalShift : ℂ) * S i i) else S
    return (some (S', F), { at₀ with eqn := some (some ⟨Eloc.mean 0, var 0, F0, Matrix.of S0⟩) })

/-- tdvp.py:173-181 `_get_snr`. With NaN data the same reductions take place. -/
noncomputable def tdvpSnrR (cfg : TdvpCfg n) (Eloc : RObs (Fin 1)) (gradients : RObs (Fin (n + 1)))
    (sp : TdvpSpectrum n) : Prog (Fin (n + 1) → Num) := do
  let cd ← gradients.covarData Eloc
  match cd with
  | none =>
    let _ ← allreduceNan (none : Option (Fin (n + 1) × Fin 1 → ℂ))
    let _ ← allreduceNan (none : Option (Fin (n + 1) × Fin 1 → ℝ))
    return fun _ => .nan
  | some cd =>
    let eo ← cd.transformLinear (fun k i => (starRingEnd ℂ) (sp.V i k))
        (fun z => cfg.q ((-cfg.rhsPrefactor) * z))
    match eo with
    | none =>
      let _ ← allreduceNan (none : Option (Fin (n + 1) × Fin 1 → ℝ))
      return fun _ => .nan
    | some EO =>
      let rhoVar ← EO.var
      return fun k => (Num.quot (cfg.numSamples * Complex.normSq (sp.VtF k)) (rhoVar (k, 0))).sqrt

/-- tdvp.py:183-213 `solve`. With NaN data the same reductions take place. -/
noncomputable def tdvpSolveR (cfg : TdvpCfg n) (data : TdvpDataR n) (at₀ : TdvpAttrs n) :
    Prog (SolveRes n × TdvpAttrs n) := do
  let (eq, at₁) ← getTdvpEquationR cfg data at₀
  match eq, data with
  | some (S, F), some (Eloc, gradients) =>
    let sp := tdvpEigenbasis cfg S F
    let snr ← tdvpSnrR cfg Eloc gradients sp
    let at₂ := { at₁ with S := some (some S), spectrum := some (some sp), snr := some snr }
    match pinvLoop cfg sp snr F with
    | none => Prog.raise .noReturn
    | some s =>
      let res ← Prog.lift (tdvpUpdate cfg sp s)
      return (res, at₂)
  | _, _ =>
    let _ ← allreduceNan (none : Option (Fin (n + 1) × Fin 1 → ℂ))
    let _ ← allreduceNan (none : Option (Fin (n + 1) × Fin 1 → ℂ))
    let _ ← allreduceNan (none : Option (Fin (n + 1) × Fin 1 → ℝ))
    let at₂ := { at₁ with S := some none, spectrum := some none, snr := some fun _ => .nan }
    if 1 > cfg.pinvTol ∧ 1e-2 > cfg.pinvCutoff then
      return (⟨none, none, max (1e-2 * (4 / 5)) cfg.pinvCutoff⟩, at₂)
    else Prog.raise .unboundLocalError

/-- tdvp.py:306-324: cross validation; returns the update. -/
noncomputable def crossValidateR (cfg : TdvpCfg n) (Eloc : RObs (Fin 1))
    (gradients : RObs (Fin (n + 1))) (metaData : TdvpMeta n) (at₀ : TdvpAttrs n) :
    Prog (Flt (Fin (n + 1) → ℝ) × TdvpAttrs n) := do
  let Eloc1 ← Eloc.subset (some 0) none (some 2)
  let gradients1 ← gradients.subset (some 0) none (some 2)
  let Eloc2 ← Eloc.subset (some 1) none (some 2)
  let gradients2 ← gradients.subset (some 1) none (some 2)
  let (res1, at₁) ← tdvpSolveR cfg (bothFinite Eloc1 gradients1) at₀
  let (eq2, at₂) ← getTdvpEquationR cfg (bothFinite Eloc2 gradients2) at₁
  let validationErr ← Prog.lift (getTdvpError at₂ res1.update)
  let (res, at₃) ← tdvpSolveR cfg (some (Eloc, gradients)) at₂
  let validationRes : Flt ℝ := do
    let (S2, F2) ← eq2
    let u ← res1.update
    let R ← res.residual
    if vecNorm F2 = 0 ∨ R = 0 then none
    else some (vecNorm (fun i => Matrix.mulVec S2 (fun j => (u j : ℂ)) i - F2 i) / vecNorm F2 / R)
  let errRatio : Flt ℝ := do
    let a ← validationErr
    let b ← metaData.tdvpError
    if b = 0 then none else some (a / b)
  let at₄ := { at₃ with metaData := some { metaData with
    crossValidation := some (validationRes, errRatio) } }
  let (eq, at₅) ← getTdvpEquationR cfg (some (Eloc, gradients)) at₄
  return (res.update, { at₅ with S := some (eq.map Prod.fst) })

/-- What a call of the sampler, of `get_O_loc` and of `psi.gradients` does on one rank, and the weights,
local energies and gradients of the samples of that rank. (tdvp.py:266-284) -/
structure TdvpEnvR (n : ℕ) (smp : Type) where
  measure : Params → smp → ℝ →
    Prog (List (List (ℝ × (Fin 1 → ℂ) × (Fin (n + 1) → ℂ))) × smp)

/-- Local energies and gradients of the samples of one rank next to their weights. (tdvp.py:266-284) -/
def withWeights {X : Type} (ps : List (List ℝ)) (d : List (List (X × (Fin 1 → ℂ) × (Fin (n + 1) → ℂ)))) :
    List (List (ℝ × (Fin 1 → ℂ) × (Fin (n + 1) → ℂ))) :=
  List.zipWith (List.zipWith fun x e => (x, e.2.1, e.2.2)) ps d

/-- The evaluation with an exact sampler on one rank: `loc` is what the devices of a rank compute for
its part `β` of the basis; the state of the sampler is that part and `lastNorm`.
(tdvp.py:266-284, sampler.py:493-526) -/
noncomputable def exactEnvR {β : Type} (lpf : ℝ)
    (loc : β → Params → ℝ → List (List (ExactEntry × (Fin 1 → ℂ) × (Fin (n + 1) → ℂ)))) :
    TdvpEnvR n (β × ℝ) where
  measure p sm t := do
    let d := loc sm.1 p t
    let (ln, ps) ← exactSampleR lpf sm.2 (d.map fun dev => dev.map Prod.fst)
    return (withWeights ps d, (sm.1, ln))

/-- The evaluation with an exact sampler on all ranks. (tdvp.py:266-284, sampler.py:493-526) -/
noncomputable def exactEnv {β : Type} {N : ℕ} [NeZero N] (lpf : ℝ)
    (loc : β → Params → ℝ → List (List (ExactEntry × (Fin 1 → ℂ) × (Fin (n + 1) → ℂ)))) :
    TdvpEnv n (Fin N → β × ℝ) where
  measure p sm t := do
    let d := fun r => loc (sm r).1 p t
    let (ln, ps) ← exactSample lpf (sm 0).2 (List.ofFn fun r => (d r).map fun dev => dev.map Prod.fst)
    return (List.zipWith withWeights ps (List.ofFn d), fun r => ((sm r).1, ln))

/-- The evaluation with MCMC on one rank: `draw` is what the rank does on its own, sampling (it has its
own random numbers), local energies and gradients; then the weights are normalised.
(tdvp.py:266-284, sampler.py:198-229) -/
noncomputable def mcmcEnvR {σ : Type} (lpf mu : ℝ)
    (draw : σ → Params → ℝ → List (List (ℂ × (Fin 1 → ℂ) × (Fin (n + 1) → ℂ))) × σ) :
    TdvpEnvR n σ where
  measure p sm t := do
    let d := draw sm p t
    let ps ← mcmcWeightsR lpf mu (d.1.map fun dev => dev.map Prod.fst)
    return (withWeights ps d.1, d.2)

/-- The evaluation with MCMC on all ranks. (tdvp.py:266-284, sampler.py:198-229) -/
noncomputable def mcmcEnv {σ : Type} {N : ℕ} (lpf mu : ℝ)
    (draw : σ → Params → ℝ → List (List (ℂ × (Fin 1 → ℂ) × (Fin (n + 1) → ℂ))) × σ) :
    TdvpEnv n (Fin N → σ) where
  measure p sm t := do
    let d := fun r => draw (sm r) p t
    let ps ← mcmcWeights lpf mu (List.ofFn fun r => (d r).1.map fun dev => dev.map Prod.fst)
    return (List.zipWith withWeights ps (List.ofFn fun r => (d r).1), fun r => (d r).2)

/-- Code that works on `psi`, on one rank. (tdvp.py:219-326) -/
noncomputable def psiR {A : Type} (m : PsiM A) (st : NqsState) : Prog (A × NqsState) :=
  match m.call st with
  | (.ok a, st') => .ret (a, st')
  | (.error e, _) => .raise e

/-- tdvp.py:219-326 `__call__`; also returns the state of `psi`. Simplification: when an exception is
raised, the state of `psi` is not recorded. -/
noncomputable def tdvpCallR {smp : Type} (env : TdvpEnvR n smp) (cfg : TdvpCfg n)
    (netParameters : List ℝ) (t : ℝ) (intStep : Option ℕ) (sm : smp) (at₀ : TdvpAttrs n)
    (st : NqsState) : Prog ((Flt (Fin (n + 1) → ℝ) × TdvpAttrs n × smp) × NqsState) := do
  let (tmpParameters, st) ← psiR getParameters st
  let (_, st) ← psiR (setParameters (.vec netParameters)) st
  let (params, st) ← psiR getParams st
  let (joint, sm') ← match params with
    | none => Prog.raise .attributeError
    | some p => env.measure p sm t
  let Eloc ← RObs.create (joint.map fun dev => dev.map fun s => (s.1, s.2.1))
  let gradients ← RObs.create (joint.map fun dev => dev.map fun s => (s.1, s.2.2))
  let (res, at₁) ← tdvpSolveR cfg (some (Eloc, gradients)) at₀
  let (_, st) ← match tmpParameters with
    | none => Prog.raise .typeError
    | some v => psiR (setParameters (.vec v)) st
  if intStep = some 0 then
    let at₂ := { at₁ with eloc0 := at₁.eqn.map fun e => e.map fun x => (x.elocMean, x.elocVar) }
    let err ← Prog.lift (getTdvpError at₂ res.update)
    let metaData : TdvpMeta n := ⟨err, res.residual, res.cutoff, at₂.snr.getD fun _ => .nan,
      (at₂.spectrum.getD none).map fun sp => sp.ev, none⟩
    let at₃ := { at₂ with metaData := some metaData }
    if cfg.crossValidation then
      let (update, at₄) ← crossValidateR cfg Eloc gradients metaData at₃
      return ((update, at₄, sm'), st)
    else return ((res.update, at₃, sm'), st)
  else return ((res.update, at₁, sm'), st)

/-! ## `jVMC/util/minsr.py` -/

/-- minsr.py:60-73 `solve`. -/
noncomputable def minsrSolveR (cfg : MinSRCfg) (eloc : RObs (Fin 1)) (gradients : RObs (Fin (n + 1))) :
    Prog (Fin (n + 1) → ℂ) := do
  let T ← gradients.tangentKernel
  let Tinv := pinvHermitian cfg.eigh cfg.pinvTol (squareOfRows T.length T)
  let elocAll ← gatherR (eloc.rows.map fun dev => dev.map fun s => s.2 0)
  let gradientsAll ← gatherR (gradients.rows.map fun dev => dev.map fun s => s.2)
  if elocAll.length = T.length ∧ gradientsAll.length = T.length then
    return fun i => -∑ a : Fin T.length, (∑ b : Fin T.length,
      (starRingEnd ℂ) ((gradientsAll.getD b fun _ => 0) i) * Tinv b a) * elocAll.getD a 0
  else Prog.raise .typeError

/-- minsr.py:75-158 `__call__`. -/
noncomputable def minsrCallR {smp : Type} (env : TdvpEnvR n smp) (cfg : MinSRCfg)
    (netParameters : List ℝ) (t : ℝ) (intStep : Option ℕ) (sm : smp) (at₀ : MinSRAttrs)
    (st : NqsState) : Prog (((Fin (n + 1) → ℂ) × MinSRAttrs × smp) × NqsState) := do
  let (tmpParameters, st) ← psiR getParameters st
  let (_, st) ← psiR (setParameters (.vec netParameters)) st
  let (params, st) ← psiR getParams st
  let (joint, sm') ← match params with
    | none => Prog.raise .attributeError
    | some p => env.measure p sm t
  let Eloc ← RObs.create (joint.map fun dev => dev.map fun s => (s.1, s.2.1))
  let gradients ← RObs.create (joint.map fun dev => dev.map fun s => (s.1, s.2.2))
  let update ← minsrSolveR cfg Eloc gradients
  let (_, st) ← match tmpParameters with
    | none => Prog.raise .typeError
    | some v => psiR (setParameters (.vec v)) st
  if intStep = some 0 then
    let var ← Eloc.var
    return ((update, some (Eloc.mean 0, var 0), sm'), st)
  else return ((update, at₀, sm'), st)

/-! ## `jVMC/util/output_manager.py` -/

/-- output_manager.py:127-154 `get_network_checkpoint` on rank `rank`; only rank 0 reads the file.
Simplification: checkpoints are one-dimensional arrays. -/
noncomputable def omGetCheckpointR (f : H5File) (cur : HName) (time : ℝ) (idx : ℤ) (rank : ℕ) :
    Prog (ℝ × List ℝ) := do
  if rank = 0 then
    let (t, w) ← Prog.lift (omGetCheckpoint f cur time idx)
    let _ ← bcastR (A := ℝ) 0 [t]
    let weights ← bcastUnknownSizeR 0 0 ⟨true, (List.range (w.shape.headD 0)).map fun i => w.val [i]⟩
    return (t, weights)
  else
    let t ← bcastR (A := ℝ) 0 []
    let weights ← bcastUnknownSizeR rank 0 ⟨true, []⟩
    return (t.headD 0, weights)

/-- A method that only rank 0 executes (`if mpi.rank == 0:`), followed by other code.
(output_manager.py:29, 38, 72, 100) -/
def onRankZero {A : Type} (rank : ℕ) (io : Except PyErr Unit) (rest : Prog A) : Prog A := do
  if rank = 0 then Prog.lift io else Prog.ret ()
  rest

/-! ## `jVMC/operator/branch_free.py` -/

/-- branch_free.py:413-438 `arg_fun` on rank `rank` of `commSize` ranks. -/
def argFunR {A : Type} [AddCommMonoid A] [MpiBuf A] (prefactor : List (ℕ × A)) (init : List A)
    (commSize rank : ℕ) : Prog (List A) :=
  if prefactor.length < 50 then Prog.lift (argFunSequential prefactor init)
  else do
    let res ← Prog.lift (argFunRank prefactor init commSize rank)
    let parts ← allgatherR res
    return parts.flatten

/-! ## `jVMC/util/stepper.py`

The right-hand side is a program of the rank, and the rank has its own state. Simplification: arrays
are values (for arrays that are modified in place see `Stepper`). -/

section
variable {M σ : Type} [AddCommGroup M] [Module ℝ M]

/-- A right-hand side on one rank. (stepper.py:33, 83-85) -/
abbrev RhsR (M σ : Type) := M → ℝ → ℕ → σ → Prog (M × σ)

/-- stepper.py:14-40 `Euler.step`. -/
def eulerStepR (dt t : ℝ) (f : RhsR M σ) (y : M) (s : σ) : Prog ((M × ℝ) × σ) := do
  let (dy, s) ← f y t 0 s
  return ((y + dt • dy, dt), s)

/-- stepper.py:62-92 `Heun.step`, without the keyword argument `dt`. -/
noncomputable def heunStepR (dt t : ℝ) (f : RhsR M σ) (y : M) (s : σ) : Prog ((M × ℝ) × σ) := do
  let (k0, s) ← f y t 0 s
  let (k1, s) ← f (y + dt • k0) (t + dt) 1 s
  return ((y + ((1 / 2) * dt) • (k0 + k1), dt), s)

/-- stepper.py:143-182: the loop of `AdaptiveHeun.step`, for at most `passes` passes (`none`: it has not
ended by then); the new value, the step taken and the next `dt` (`none`: NaN). -/
noncomputable def ahLoopR (obj : AHeun) (norm : M → ℝ) (t : ℝ) (f : RhsR M σ) (y : M) :
    ℕ → ℝ → σ → Prog (Option (M × ℝ × Flt ℝ) × σ)
  | 0, _, s => return (none, s)
  | passes + 1, dt, s => do
    let (k0, s) ← f y t 0 s
    let (k1, s) ← f (y + dt • k0) (t + dt) 1 s
    let dy0 := ((1 / 2) * dt) • (k0 + k1)
    let (k10, s) ← f (y + dt • k0 - ((1 / 2) * dt) • k0) (t + (1 / 2) * dt) 2 s
    let dy1 := ((1 / 4) * dt) • (k0 + k10)
    let (k01, s) ← f (y + dy1) (t + (1 / 2) * dt) 3 s
    let (k11, s) ← f (y + dy1 + ((1 / 2) * dt) • k01) (t + dt) 4 s
    let dy1 := dy1 + ((1 / 4) * dt) • (k01 + k11)
    let fe := Num.quot obj.tolerance (norm (dy1 - dy0))
    let dt' := (ahFactor fe).map fun tmp => if dt * tmp > obj.maxStep then obj.maxStep else dt * tmp
    match fe.below 1, dt' with
    | true, some d => ahLoopR obj norm t f y passes d s
    | _, _ => return (some (y + dy1, dt, dt'), s)

end

end JVMC

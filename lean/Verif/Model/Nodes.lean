import Verif.Model.MCSampler
import Verif.Model.Pipeline
import Verif.Model.SymNet

/-!
# Wave functions with zeros

`log ψ` may be minus infinity (`LogVal`), e.g. for the symmetrised networks of `nets/sym_wrapper.py`: samplers, local
estimators and averages with such values. Values that are infinite or NaN are `none` of `Flt`: a product with, or a
sum over, such a value is again infinite or NaN (`0 * inf` is NaN). The numbers are exact otherwise.
-/

namespace JVMC

/-! ## Exact sampler -/

/-- sampler.py:466-478, `_compute_probabilities` for one entry: `exp(-inf) = 0` (`logProbFactor` is positive). -/
noncomputable def exactUnnormalisedN (logProbFactor lastNorm : ℝ) (e : Bool × LogVal) : ℝ :=
  match e.2 with
  | none => 0
  | some z => exactUnnormalised logProbFactor lastNorm (e.1, z)

/-- sampler.py:511-518, as `exactSample`. Simplification: a wave function that vanishes on all configurations (the
probabilities are `0 / 0`) is not followed. -/
noncomputable def exactSampleN (logProbFactor lastNorm : ℝ) (world : List (List (List (Bool × LogVal)))) :
    Except PyErr (ℝ × List (List (List ℝ))) := do
  let p := world.map fun rk => rk.map fun dev => dev.map (exactUnnormalisedN logProbFactor lastNorm)
  let nrms ← globalSum p
  match nrms with
  | [] => .error .indexError
  | nrm :: _ =>
    if nrm = 0 then .error .noReturn else
    return (lastNorm + logProbFactor * Real.log nrm,
      p.map fun rk => rk.map fun dev => dev.map fun x => x / nrm)

/-- sampler.py:504-518 `ExactSampler.sample`, as `exactSampleWorld`. -/
noncomputable def exactSampleWorldN {S : Type} (lDim N deviceCount commSize : ℕ) (decode : List ℕ → S)
    (logProbFactor lastNorm : ℝ) (logPsi : S → LogVal) : Except PyErr (ℝ × World (S × LogVal × ℝ)) := do
  let basis ← exactBasisWorld lDim N deviceCount commSize
  let (ln, p) ← exactSampleN logProbFactor lastNorm
    (World.map (fun e => (e.1, logPsi (decode e.2))) basis)
  return (ln, List.zipWith (List.zipWith (List.zipWith fun e w =>
    (decode e.2, logPsi (decode e.2), w))) basis p)

/-! ## Markov chains -/

/-- sampler.py:324-328 for one chain: `P = exp(new - old)` with `new = mu * Re(log ψ(s'))`, and `u < P`. From a
configuration where the wave function vanishes, `P` is infinite or, if it vanishes on the proposed one, too, NaN;
comparisons with NaN are false. (`mu` is positive, `u` finite.) -/
noncomputable def acceptsN (mu : ℝ) (old new : LogVal) (u : ℝ) : Bool :=
  match old, new with
  | some z, some z' => decide (u < Real.exp (mu * z'.re - mu * z.re))
  | some _, none => decide (u < 0)
  | none, some _ => true
  | none, none => false

/-- sampler.py:315-341 `perform_mc_update` for one chain: the configuration after proposing `prop` and drawing `u`.
(The stored `logAccProb` is that of the configuration, see C13.) -/
noncomputable def chainStepN {S : Type} (mu : ℝ) (logPsi : S → LogVal) (s : S) (d : S × ℝ) : S :=
  if acceptsN mu (logPsi s) (logPsi d.1) d.2 then d.1 else s

/-- sampler.py:313-346 `_sweep` for one chain; the proposals (a function of the configuration) and numbers of all
updates are given. -/
noncomputable def chainRunN {S : Type} (mu : ℝ) (logPsi : S → LogVal) : S → List ((S → S) × ℝ) → S
  | s, [] => s
  | s, (prop, u) :: ds => chainRunN mu logPsi (chainStepN mu logPsi s (prop s, u)) ds

/-! ## Local estimators -/

/-- base.py:163 `exp(logPsiSP - logPsiS)`: zero if `ψ(s') = 0 ≠ ψ(s)`; infinite or NaN if `ψ(s) = 0`. -/
noncomputable def ratioN (logPsiS logPsiSP : LogVal) : Flt ℂ :=
  match logPsiS, logPsiSP with
  | some y, some z => some (Complex.exp (z - y))
  | some _, none => some 0
  | none, _ => none

/-- base.py:162-164 `_get_O_loc` on one sample. -/
noncomputable def oLocRowN {S : Type} (row : List (S × ℂ)) (logPsiS : LogVal) (logPsi : S → LogVal) : Flt ℂ :=
  (row.mapM fun e => (ratioN logPsiS (logPsi e.1)).map fun q => e.2 * q).map List.sum

/-- base.py:188-192, 212 and 248-253, as `oLocOn`. -/
noncomputable def oLocOnN {S : Type} (kernel : S → List (S × ℂ)) (logPsi : S → LogVal)
    (samples : List S) (logPsiS : List LogVal) : List (Flt ℂ) :=
  List.zipWith (fun row l => oLocRowN row l logPsi) (getSPrimes kernel samples) logPsiS

/-- base.py:243-261, as `oLocLoop`. -/
noncomputable def oLocLoopN {S : Type} (kernel : S → List (S × ℂ)) (logPsi : S → LogVal) (samples : List S)
    (logPsiS : List LogVal) (batchSize : ℕ) (numBatches : ℕ) : Option (List (Flt ℂ)) :=
  (List.range numBatches).foldl (fun acc b =>
    let out := oLocOnN kernel logPsi (dynSlice samples (b * batchSize) batchSize)
      (dynSlice logPsiS (b * batchSize) batchSize)
    some (dynUpdate (acc.getD (List.replicate samples.length (some 0))) out (b * batchSize))) none

/-- base.py:214-278 `get_O_loc_batched`, as `getOLocBatched`. -/
noncomputable def getOLocBatchedN {S : Type} (kernel : S → List (S × ℂ)) (logPsi : S → LogVal)
    (zeroCfg : S) (samples : List S) (logPsiS : List LogVal) (batchSize : ℕ) : Option (List (Flt ℂ)) :=
  let plan := oLocPlan samples.length batchSize
  let bs := plan.1
  let nb := plan.2.1
  let rem := plan.2.2
  let oloc := oLocLoopN kernel logPsi samples logPsiS bs nb
  if 0 < rem then
    let batch := expandBatch zeroCfg (dynSlice samples (nb * bs) rem) bs
    let lbatch := expandBatch (some 0) (dynSlice logPsiS (nb * bs) (samples.length % bs)) bs
    let out := dynSlice (oLocOnN kernel logPsi batch lbatch) 0 rem
    oloc.map fun o => dynUpdate o out (nb * bs)
  else oloc

/-- base.py:166-192 `get_O_loc` for a network that returns `log ψ`. -/
noncomputable def getOLocN {S : Type} (kernel : S → List (S × ℂ)) (logPsi : S → LogVal) (zeroCfg : S)
    (elocBatchSize : ℤ) (samples : List S) (logPsiS : List LogVal) : Option (List (Flt ℂ)) :=
  if 0 < elocBatchSize then
    getOLocBatchedN kernel logPsi zeroCfg samples logPsiS elocBatchSize.toNat
  else some (oLocOnN kernel logPsi samples logPsiS)

/-- base.py:166-192 on all ranks and devices, as `oLocWorld`. -/
noncomputable def oLocWorldN {S : Type} (kernel : S → List (S × ℂ)) (logPsi : S → LogVal) (zeroCfg : S)
    (elocBatchSize : ℤ) (samples : World (S × LogVal × ℝ)) : Except PyErr (World (ℝ × Flt ℂ)) :=
  samples.mapM fun rk => rk.mapM fun dev =>
    match getOLocN kernel logPsi zeroCfg elocBatchSize (dev.map fun x => x.1) (dev.map fun x => x.2.1) with
    | none => .error .typeError
    | some o => .ok (List.zipWith (fun x v => (x.2.2, v)) dev o)

/-- The values, if all of them are finite. (util.py:139-155) -/
def World.finite {A : Type} (w : World (ℝ × Flt A)) : Flt (World (ℝ × A)) :=
  w.mapM fun rk => rk.mapM fun dev => dev.mapM fun x => x.2.map fun v => (x.1, v)

/-- util.py:128-155 `measure` for one operator, on every rank: if a local value is not finite then neither is its
product with the weight (even if that is zero), and neither are mean and variance. -/
noncomputable def measureOpN {S : Type} (kernel : S → List (S × ℂ)) (logPsi : S → LogVal) (zeroCfg : S)
    (elocBatchSize : ℤ) (numSamples : Option ℕ) (samples : World (S × LogVal × ℝ)) :
    Except PyErr (List (Flt MeasResult)) := do
  let o ← oLocWorldN kernel logPsi zeroCfg elocBatchSize samples
  match World.finite o with
  | none => return List.map (fun _ => none) o
  | some w =>
    let res ← measureOne numSamples (World.map (fun x => (x.1, fun _ => x.2)) w)
    return res.map some

end JVMC

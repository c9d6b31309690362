import Verif.Model.Stepper

/-!
# Model of `ground_state_search` (`jVMC/util/util.py:160-212`)

The function calls methods of `psi`, the equation, the sampler and the output manager. `W` is the state
of all of them except the attribute `diagonalShift` of the equation and the list of recorded
observables, which are explicit. Exceptions end the search. Timings and printed text are not modelled.
-/

namespace JVMC

/-- What `ground_state_search` calls. (util.py:175-205) -/
structure GsApi (P O W : Type) where
  /-- `"diagonalShift" in dir(tdvpEquation)` -/
  hasShift : Bool
  /-- `"set_diagonal_shift" in dir(tdvpEquation)` -/
  hasSetter : Bool
  /-- `psi.get_parameters()` -/
  getParams : W → Except PyErr P
  /-- `tdvpEquation(p, 0, hamiltonian=ham, psi=psi, numSamples=None, outp=outp, intStep=k)`; the first
  argument is the current `diagonalShift`. -/
  rhs : ℝ → P → ℕ → W → Except PyErr (P × W)
  /-- `psi.set_parameters(dp)` -/
  setParams : P → W → Except PyErr W
  /-- `tdvpEquation.get_energy_variance()`; may be NaN. -/
  variance : W → Except PyErr (Flt ℝ)
  /-- `measure(observables, psi, sampler)` -/
  measure : W → Except PyErr (O × W)

variable {P O W : Type} [AddCommGroup P] [Module ℝ P]

/-- util.py:181-184, 198-201: measure and record if there are an output manager and observables
(`record`). -/
def gsMeasure (api : GsApi P O W) (record : Bool) (n : ℕ) (w : W) (log : List (ℕ × O)) :
    Except PyErr (W × List (ℕ × O)) :=
  if record then do
    let (obs, w) ← api.measure w
    return (w, log ++ [(n, obs)])
  else return (w, log)

/-- The local variables of the loop: `n`, `varE`, `delta` (unbound if the equation has no
`diagonalShift`), the attribute `diagonalShift`, everything else, and the recorded observables.
(util.py:175-205) -/
structure GsState (O W : Type) where
  n : ℕ
  varE : Flt ℝ
  delta : Option ℝ
  shift : ℝ
  w : W
  log : List (ℕ × O)

/-- util.py:190-205: the body of the loop. `stepper.step` is `Euler.step` (stepper.py:38-40,
`eulerStep`) for a right-hand side that can raise. -/
def gsBody (api : GsApi P O W) (stepSize : ℝ) (record : Bool) (s : GsState O W) :
    Except PyErr (GsState O W) := do
  let p ← api.getParams s.w
  let (dp, w) ← api.rhs s.shift p 0 s.w
  let w ← api.setParams (p + stepSize • dp) w
  let n := s.n + 1
  let varE ← api.variance w
  let (w, log) ← gsMeasure api record n w s.log
  if api.hasSetter then
    match s.delta with
    | none => .error .unboundLocalError
    | some delta =>
      let delta := 0.95 * delta
      return ⟨n, varE, some delta, delta, w, log⟩
  else return ⟨n, varE, s.delta, s.shift, w, log⟩

/-- util.py:188: the condition of the loop (false for NaN). -/
noncomputable def gsCond (numSteps : ℤ) (varianceTol : ℝ) (s : GsState O W) : Bool :=
  decide ((s.n : ℤ) < numSteps) && (match s.varE with
    | none => false
    | some v => decide (v > varianceTol))

/-- util.py:188-212: the loop; `fuel` passes are enough when `numSteps ≤ n + fuel`. -/
noncomputable def gsLoop (api : GsApi P O W) (numSteps : ℤ) (varianceTol stepSize : ℝ) (record : Bool) :
    ℕ → GsState O W → Except PyErr (GsState O W)
  | 0, s => if gsCond numSteps varianceTol s then .error .noReturn else .ok s
  | fuel + 1, s =>
    if gsCond numSteps varianceTol s then do
      let s ← gsBody api stepSize record s
      gsLoop api numSteps varianceTol stepSize record fuel s
    else .ok s

/-- util.py:160-212 `ground_state_search`: the state at the end. -/
noncomputable def groundStateSearch (api : GsApi P O W) (numSteps : ℤ) (varianceTol stepSize : ℝ) (record : Bool)
    (shift : ℝ) (w : W) : Except PyErr (GsState O W) := do
  let delta := if api.hasShift then some shift else none
  let (w, log) ← gsMeasure api record 0 w []
  gsLoop api numSteps varianceTol stepSize record numSteps.toNat ⟨0, some 1, delta, shift, w, log⟩

/-- The interface of `psi` and a `TDVP` object (tdvp.py:74-130) on rank `r`: the state consists of `psi`,
the attributes of the equation, and the sampler; `meas` is `measure` (it does not change `psi`).
Simplification: an update with NaN entries ends the search. -/
noncomputable def tdvpApi {n : ℕ} {smp : Type} (env : TdvpEnv n smp) (cfg : TdvpCfg n) (r : ℕ)
    (meas : NqsState → smp → Except PyErr (O × smp)) :
    GsApi (Fin (n + 1) → ℝ) O (NqsState × TdvpAttrs n × smp) where
  hasShift := true
  hasSetter := true
  getParams w := match (getParameters.call w.1).1 with
    | .error e => .error e
    | .ok none => .error .typeError
    | .ok (some v) => if h : v.length = n + 1 then .ok fun i => v[i]'(by omega) else .error .broadcastError
  rhs d p k w :=
    match (tdvpCall env { cfg with diagonalShift := d } r (List.ofFn p) 0 (some k) w.2.2 w.2.1).call w.1 with
    | (.error e, _) => .error e
    | (.ok (none, _, _), _) => .error .noReturn
    | (.ok (some u, at₁, sm), st) => .ok (u, (st, at₁, sm))
  setParams p w := match (setParameters (.vec (List.ofFn p))).call w.1 with
    | (.error e, _) => .error e
    | (.ok (), st) => .ok (st, w.2)
  variance w := match w.2.1.eloc0 with
    | none => .error .attributeError
    | some x => .ok (x.map Prod.snd)
  measure w := do
    let (obs, sm) ← meas w.1 w.2.2
    return (obs, (w.1, w.2.1, sm))

end JVMC

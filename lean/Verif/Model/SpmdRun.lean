import Verif.Model.SpmdCode
import Verif.Model.GroundState

/-!
# Model of whole simulations on several ranks

`ground_state_search` (`jVMC/util/util.py:160-212`) and the loop of
`examples/ex2_unitary_time_evolution.py:71-87` as programs of one rank. What all ranks do together is
the business of `Model/Spmd.lean`. Exceptions end the program of a rank.
-/

namespace JVMC

/-! ## The start -/

/-- vqs.py:161-203 with `psi(s)` or `psi.get_parameters` for the first time: `init seed shape` are the
parameters drawn by `net.init(PRNGKey(seed), s)`, a function of the seed and of the shape of the
configuration. Every rank does this on its own. -/
noncomputable def startPsi (init : ℕ → List ℕ → Params) (seed : ℕ) (shape : List ℕ) : NqsState :=
  ((initNet (init seed shape)).call none).2

/-! ## `ground_state_search` -/

/-- What `ground_state_search` calls on one rank; as `GsApi`, with programs where ranks communicate. An
update with NaN entries is `none`. (util.py:175-205) -/
structure GsApiR (P O W : Type) where
  hasShift : Bool
  hasSetter : Bool
  getParams : W → Except PyErr P
  rhs : ℝ → P → ℕ → W → Prog (Flt P × W)
  setParams : P → W → Except PyErr W
  variance : W → Except PyErr (Flt ℝ)
  measure : W → Prog (O × W)

section

variable {P O W : Type} [AddCommGroup P] [Module ℝ P]

/-- util.py:181-184, 198-201: measure and record. -/
def gsMeasureR (api : GsApiR P O W) (record : Bool) (n : ℕ) (w : W) (log : List (ℕ × O)) :
    Prog (W × List (ℕ × O)) :=
  if record then do
    let (obs, w) ← api.measure w
    return (w, log ++ [(n, obs)])
  else return (w, log)

/-- util.py:190-205: the body of the loop. Simplification: an update with NaN entries ends the
search (`none`). -/
def gsBodyR (api : GsApiR P O W) (stepSize : ℝ) (record : Bool) (s : GsState O W) :
    Prog (Option (GsState O W)) := do
  let p ← Prog.lift (api.getParams s.w)
  let (dp, w) ← api.rhs s.shift p 0 s.w
  match dp with
  | none => return none
  | some dp =>
    let w ← Prog.lift (api.setParams (p + stepSize • dp) w)
    let n := s.n + 1
    let varE ← Prog.lift (api.variance w)
    let (w, log) ← gsMeasureR api record n w s.log
    if api.hasSetter then
      match s.delta with
      | none => Prog.raise .unboundLocalError
      | some delta =>
        let delta := 0.95 * delta
        return some ⟨n, varE, some delta, delta, w, log⟩
    else return some ⟨n, varE, s.delta, s.shift, w, log⟩

/-- util.py:188-212: the loop; `fuel` passes are enough when `numSteps ≤ n + fuel`. -/
noncomputable def gsLoopR (api : GsApiR P O W) (numSteps : ℤ) (varianceTol stepSize : ℝ) (record : Bool) :
    ℕ → GsState O W → Prog (Option (GsState O W))
  | 0, s => if gsCond numSteps varianceTol s then Prog.raise .noReturn else return some s
  | fuel + 1, s =>
    if gsCond numSteps varianceTol s then do
      let s ← gsBodyR api stepSize record s
      match s with
      | none => return none
      | some s => gsLoopR api numSteps varianceTol stepSize record fuel s
    else return some s

/-- util.py:160-212 `ground_state_search` on one rank: the state at the end. -/
noncomputable def groundStateSearchR (api : GsApiR P O W) (numSteps : ℤ) (varianceTol stepSize : ℝ)
    (record : Bool) (shift : ℝ) (w : W) : Prog (Option (GsState O W)) := do
  let delta := if api.hasShift then some shift else none
  let (w, log) ← gsMeasureR api record 0 w []
  gsLoopR api numSteps varianceTol stepSize record numSteps.toNat ⟨0, some 1, delta, shift, w, log⟩

end

/-! ## `psi` and a `TDVP` object -/

section

variable {n : ℕ} {smp O : Type}

/-- `psi`, the attributes of the TDVP object and the sampler of one rank. (tdvp.py:74-130) -/
abbrev RankState (n : ℕ) (smp : Type) := NqsState × TdvpAttrs n × smp

/-- `psi.get_parameters()` on one rank. (vqs.py:427-450) -/
noncomputable def rankParams (w : RankState n smp) : Except PyErr (Fin (n + 1) → ℝ) :=
  match (getParameters.call w.1).1 with
  | .error e => .error e
  | .ok none => .error .typeError
  | .ok (some v) => if h : v.length = n + 1 then .ok fun i => v[i]'(by omega) else .error .broadcastError

/-- `psi.set_parameters(p)` on one rank. (vqs.py:409-425) -/
noncomputable def rankSet (p : Fin (n + 1) → ℝ) (w : RankState n smp) : Except PyErr (RankState n smp) :=
  match (setParameters (.vec (List.ofFn p))).call w.1 with
  | (.error e, _) => .error e
  | (.ok (), st) => .ok (st, w.2)

/-- `measure(observables, psi, sampler)` on one rank (util.py:93-157): `meas` gets the parameters of `psi`. -/
noncomputable def rankMeasure (meas : Params → smp → Prog (O × smp)) (w : RankState n smp) :
    Prog (O × RankState n smp) :=
  match w.1 with
  | none => Prog.raise .attributeError
  | some st => do
    let (obs, sm) ← meas st.params w.2.2
    return (obs, (w.1, w.2.1, sm))

/-- The interface of `psi` and a `TDVP` object (tdvp.py:74-130, 219-326) on one rank. -/
noncomputable def tdvpApiR (env : TdvpEnvR n smp) (cfg : TdvpCfg n) (meas : Params → smp → Prog (O × smp)) :
    GsApiR (Fin (n + 1) → ℝ) O (RankState n smp) where
  hasShift := true
  hasSetter := true
  getParams := rankParams
  rhs d p k w := do
    let ((u, at₁, sm), st) ←
      tdvpCallR env { cfg with diagonalShift := d } (List.ofFn p) 0 (some k) w.2.2 w.2.1 w.1
    return (u, (st, at₁, sm))
  setParams := rankSet
  variance w := match w.2.1.eloc0 with
    | none => .error .attributeError
    | some x => .ok (x.map Prod.snd)
  measure := rankMeasure meas

/-- `measure` as seen from all ranks together, for `tdvpApi`. (util.py:93-157) -/
def psiMeasure {smp' : Type} (meas : Params → smp' → Except PyErr (O × smp')) (psi : NqsState) (sm : smp') :
    Except PyErr (O × smp') :=
  match psi with
  | none => .error .attributeError
  | some st => meas st.params sm

/-! ### Observables -/

variable {K : ℕ}

/-- Weights and local values of one operator. (util.py:139-146) -/
def opData {X : Type} (k : Fin K) (ps : List (List ℝ)) (d : List (List (X × (Fin K → ℂ)))) :
    List (List (ℝ × (Fin 1 → ℂ))) :=
  List.zipWith (List.zipWith fun x e => (x, fun _ => e.2 k)) ps d

/-- `measure` of `K` operators with an exact sampler on one rank: `loc` are the basis states of the rank
and the local values. (util.py:93-157, sampler.py:493-526) -/
noncomputable def exactObsR {β : Type} (lpf : ℝ) (loc : β → Params → List (List (ExactEntry × (Fin K → ℂ))))
    (p : Params) (sm : β × ℝ) : Prog (List MeasResult × (β × ℝ)) := do
  let d := loc sm.1 p
  let (ln, ps) ← exactSampleR lpf sm.2 (d.map fun dev => dev.map Prod.fst)
  let res ← measureManyR none ((List.finRange K).map fun k => opData k ps d)
  return (res, (sm.1, ln))

/-- `measure` of `K` operators with an exact sampler: what rank `r` gets.
(util.py:93-157, sampler.py:493-526) -/
noncomputable def exactObs {β : Type} {N : ℕ} [NeZero N] (lpf : ℝ)
    (loc : β → Params → List (List (ExactEntry × (Fin K → ℂ)))) (r : ℕ)
    (p : Params) (sm : Fin N → β × ℝ) : Except PyErr (List MeasResult × (Fin N → β × ℝ)) := do
  let d := fun r => loc (sm r).1 p
  let (ln, ps) ← exactSample lpf (sm 0).2 (List.ofFn fun r => (d r).map fun dev => dev.map Prod.fst)
  let ls ← ((List.finRange K).map fun k => List.zipWith (opData k) ps (List.ofFn d)).mapM (measureOne none)
  let res ← ls.mapM (atRank r)
  return (res, fun r => ((sm r).1, ln))

/-- `measure` of `K` operators with MCMC on one rank: `draw` is what the rank does on its own.
(util.py:93-157, sampler.py:198-229) -/
noncomputable def mcmcObsR {σ : Type} (lpf mu : ℝ) (num : ℕ)
    (draw : σ → Params → List (List (ℂ × (Fin K → ℂ))) × σ)
    (p : Params) (sm : σ) : Prog (List MeasResult × σ) := do
  let d := draw sm p
  let ps ← mcmcWeightsR lpf mu (d.1.map fun dev => dev.map Prod.fst)
  let res ← measureManyR (some num) ((List.finRange K).map fun k => opData k ps d.1)
  return (res, d.2)

/-- `measure` of `K` operators with MCMC: what rank `r` gets. (util.py:93-157, sampler.py:198-229) -/
noncomputable def mcmcObs {σ : Type} {N : ℕ} (lpf mu : ℝ) (num : ℕ)
    (draw : σ → Params → List (List (ℂ × (Fin K → ℂ))) × σ) (r : ℕ)
    (p : Params) (sm : Fin N → σ) : Except PyErr (List MeasResult × (Fin N → σ)) := do
  let d := fun r => draw (sm r) p
  let ps ← mcmcWeights lpf mu (List.ofFn fun r => (d r).1.map fun dev => dev.map Prod.fst)
  let ls ← ((List.finRange K).map fun k =>
    List.zipWith (opData k) ps (List.ofFn fun r => (d r).1)).mapM (measureOne (some num))
  let res ← ls.mapM (atRank r)
  return (res, fun r => (d r).2)

/-! ## Time evolution -/

/-- A stepper object: `Euler(timeStep)`, `Heun(timeStep)`, or `AdaptiveHeun` with at most `passes`
attempts per step. (stepper.py:14-182) -/
inductive StepperR where
  | euler (dt : ℝ)
  | heun (dt : ℝ)
  | adaptive (obj : AHeun) (passes : ℕ)

section

variable {M σ : Type} [AddCommGroup M] [Module ℝ M]

/-- stepper.py:143-182: the loop of `AdaptiveHeun.step` as in `ahLoopR`, for a norm that may use attributes of
the right-hand side, such as `tdvpEquation.S_dot` (tdvp.py:215-217). -/
noncomputable def ahLoopSR (obj : AHeun) (norm : σ → M → ℝ) (t : ℝ) (f : RhsR M σ) (y : M) :
    ℕ → ℝ → σ → Prog (Option (M × ℝ × Flt ℝ) × σ)
  | 0, _, s => return (none, s)
  | passes + 1, dt, s => do
    let (k0, s) ← f y t 0 s
    let (k1, s) ← f (y + dt • k0) (t + dt) 1 s
    let dy0 := ((1 / 2) * dt) • (k0 + k1)
    let (k10, s) ← f (y + dt • k0 - ((1 / 2) * dt) • k0) (t + (1 / 2) * dt) 2 s
    let dy1 := ((1 / 4) * dt) • (k0 + k10)
    let (k01, s) ← f (y + dy1) (t + (1 / 2) * dt) 3 s
    let (k11, s) ← f (y + dy1 + ((1 / 2) * dt) • k01) (t + dt) 4 s
    let dy1 := dy1 + ((1 / 4) * dt) • (k01 + k11)
    let fe := Num.quot obj.tolerance (norm s (dy1 - dy0))
    let dt' := (ahFactor fe).map fun tmp => if dt * tmp > obj.maxStep then obj.maxStep else dt * tmp
    match fe.below 1, dt' with
    | true, some d => ahLoopSR obj norm t f y passes d s
    | _, _ => return (some (y + dy1, dt, dt'), s)

/-- `stepper.step(t, f, y, normFunction=norm)` on one rank (stepper.py:33-40, 62-92, 112-182): the new value, the
step taken and the stepper afterwards. `none`: `AdaptiveHeun` has not accepted a step within `passes`
attempts, or its next step is NaN. -/
noncomputable def stepR (norm : σ → M → ℝ) (t : ℝ) (f : RhsR M σ) (y : M)
    (s : σ) : StepperR → Prog (Option (M × ℝ × StepperR) × σ)
  | .euler dt => do
    let ((y, d), s) ← eulerStepR dt t f y s
    return (some (y, d, .euler dt), s)
  | .heun dt => do
    let ((y, d), s) ← heunStepR dt t f y s
    return (some (y, d, .heun dt), s)
  | .adaptive obj passes => do
    let (out, s) ← ahLoopSR obj norm t f y passes obj.dt s
    match out with
    | some (y, d, some d') => return (some (y, d, .adaptive { obj with dt := d' } passes), s)
    | _ => return (none, s)

end

/-- A TDVP object as right-hand side on one rank (tdvp.py:219-326, stepper.py:38, 87-89); after an update
with NaN entries nothing is evaluated any more (`none`). -/
noncomputable def tdvpRhsR (env : TdvpEnvR n smp) (cfg : TdvpCfg n) :
    RhsR (Fin (n + 1) → ℝ) (Option (RankState n smp)) :=
  fun y t k s =>
    match s with
    | none => return (0, none)
    | some w => do
      let ((u, at₁, sm), st) ← tdvpCallR env cfg (List.ofFn y) t (some k) w.2.2 w.2.1 w.1
      match u with
      | none => return (0, none)
      | some u => return (u, some (st, at₁, sm))

/-- The variables of the script: the time, the stepper, `psi` with the TDVP object and the sampler, and
what has been written. (examples/ex2_unitary_time_evolution.py:28-70) -/
structure EvoState (O W : Type) where
  t : ℝ
  stepper : StepperR
  w : W
  log : List (ℝ × O)

/-- A norm that uses the attributes `ElocMean`, `ElocVar`, `F0`, `S0` of the TDVP object, e.g.
`partial(norm_fun, df=tdvpEquation.S_dot)`. (examples/ex5_dissipative_Lindblad.py:83, tdvp.py:215-217) -/
def attrNorm (norm : Option (Flt (TdvpEqn n)) → (Fin (n + 1) → ℝ) → ℝ) (s : Option (RankState n smp)) :
    (Fin (n + 1) → ℝ) → ℝ :=
  norm (s.bind fun w => w.2.1.eqn)

/-- examples/ex2_unitary_time_evolution.py:71-81 (and ex5_dissipative_Lindblad.py:75-85) on one rank, for at most
`passes` passes of the loop: while `t < tmax`, a step, `psi.set_parameters`, the time, `measure`, and
recording. The script stops (`none`) when an update has NaN entries. The first argument of `step` is the time
(the scripts pass 0, as their Hamiltonians do not depend on time). -/
noncomputable def evolveR (env : TdvpEnvR n smp) (cfg : TdvpCfg n)
    (norm : Option (Flt (TdvpEqn n)) → (Fin (n + 1) → ℝ) → ℝ)
    (meas : Params → smp → Prog (O × smp)) (tmax : ℝ) :
    ℕ → EvoState O (RankState n smp) → Prog (Option (EvoState O (RankState n smp)))
  | 0, x => return some x
  | passes + 1, x =>
    open Classical in
    if x.t < tmax then do
      let p ← Prog.lift (rankParams x.w)
      let (out, s) ← stepR (attrNorm norm) x.t (tdvpRhsR env cfg) p (some x.w) x.stepper
      match out, s with
      | some (y, d, stepper), some w => do
        let w ← Prog.lift (rankSet y w)
        let (obs, w) ← rankMeasure meas w
        evolveR env cfg norm meas tmax passes ⟨x.t + d, stepper, w, x.log ++ [(x.t + d, obs)]⟩
      | _, _ => return none
    else return some x

/-- examples/ex2_unitary_time_evolution.py:52-81 on one rank: measure, then the loop. -/
noncomputable def simulateR (env : TdvpEnvR n smp) (cfg : TdvpCfg n)
    (norm : Option (Flt (TdvpEqn n)) → (Fin (n + 1) → ℝ) → ℝ)
    (meas : Params → smp → Prog (O × smp)) (tmax : ℝ) (passes : ℕ) (t : ℝ) (stepper : StepperR)
    (w : RankState n smp) : Prog (Option (EvoState O (RankState n smp))) := do
  let (obs, w) ← rankMeasure meas w
  evolveR env cfg norm meas tmax passes ⟨t, stepper, w, [(t, obs)]⟩

end

end JVMC

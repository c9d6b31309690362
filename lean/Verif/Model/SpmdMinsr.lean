import Verif.Model.SpmdRun
import Verif.Model.MinsrSearch

/-!
# Model of `ground_state_search` with a `MinSR` object on several ranks

`jVMC/util/util.py:160-212`, `jVMC/util/minsr.py`
-/

namespace JVMC

variable {n : ℕ} {smp O : Type}

/-- `psi`, the attributes of the MinSR object and the sampler of one rank. (minsr.py:29-58) -/
abbrev MinsrState (smp : Type) := NqsState × MinSRAttrs × smp

/-- `psi.get_parameters()` on one rank. Simplification: as in `minsrApi`, the search is not followed further
when it continues with a real network that has got complex arrays as parameters (`.noReturn`).
(vqs.py:427-450) -/
noncomputable def minsrParams (w : MinsrState smp) : Except PyErr (Fin (n + 1) → ℂ) :=
  match w.1 with
  | none => .error .typeError
  | some st =>
    if st.realParams = st.params.isReal then
      match (getParameters.call w.1).1 with
      | .error e => .error e
      | .ok none => .error .typeError
      | .ok (some v) =>
        if h : v.length = n + 1 then .ok fun i => ((v[i]'(by omega) : ℝ) : ℂ) else .error .broadcastError
    else .error .noReturn

/-- `psi.set_parameters(p)` with the complex vector `p` on one rank. (vqs.py:409-444) -/
noncomputable def minsrSet (p : Fin (n + 1) → ℂ) (w : MinsrState smp) : Except PyErr (MinsrState smp) :=
  match (setParametersC (List.ofFn p)).call w.1 with
  | (.error e, _) => .error e
  | (.ok (), st) => .ok (st, w.2)

/-- `measure(observables, psi, sampler)` on one rank (util.py:93-157): `meas` gets the parameters of `psi`. -/
noncomputable def minsrMeasure (meas : Params → smp → Prog (O × smp)) (w : MinsrState smp) :
    Prog (O × MinsrState smp) :=
  match w.1 with
  | none => Prog.raise .attributeError
  | some st => do
    let (obs, sm) ← meas st.params w.2.2
    return (obs, (w.1, w.2.1, sm))

/-- The interface of `psi` and a `MinSR` object (minsr.py:29-158) on one rank; there is neither
`diagonalShift` nor `set_diagonal_shift`. -/
noncomputable def minsrApiR (env : TdvpEnvR n smp) (cfg : MinSRCfg) (meas : Params → smp → Prog (O × smp)) :
    GsApiR (Fin (n + 1) → ℂ) O (MinsrState smp) where
  hasShift := false
  hasSetter := false
  getParams := minsrParams
  rhs _ p k w := do
    let ((u, at₁, sm), st) ←
      minsrCallR env cfg (List.ofFn fun i => (p i).re) 0 (some k) w.2.2 w.2.1 w.1
    return (some u, (st, at₁, sm))
  setParams := minsrSet
  variance w := match w.2.1 with
    | none => .error .attributeError
    | some x => .ok (some x.2)
  measure := minsrMeasure meas

end JVMC

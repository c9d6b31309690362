import Verif.Model.GroundState
import Verif.Model.MinSR

/-!
# Model of `ground_state_search` with a `MinSR` object (`jVMC/util/util.py:160-212`, `jVMC/util/minsr.py`)

`MinSR` returns complex vectors, also for the real and imaginary parts of complex parameters; `set_parameters`
receives their sum with the real vector of the current parameters.
-/

namespace JVMC

/-- `x + 1.j * y` for one-dimensional complex arrays, with broadcasting of length one. (vqs.py:437) -/
noncomputable def addImagC (x y : List ℂ) : Except PyErr (List ℂ) :=
  if x.length = y.length then .ok (List.zipWith (fun a b => a + Complex.I * b) x y)
  else if x.length = 1 then .ok (y.map fun b => x.headD 0 + Complex.I * b)
  else if y.length = 1 then .ok (x.map fun a => a + Complex.I * y.headD 0)
  else .error .broadcastError

/-- vqs.py:430-444 `_param_unflatten` with a complex vector, complex networks. -/
noncomputable def unflattenCpxC : List ℕ → ℕ → List ℂ → Except PyErr (List (List ℂ))
  | [], _, _ => .ok []
  | n :: ns, start, P => do
    let z ← addImagC (pySlice P start (start + n)) (pySlice P (start + n) (start + 2 * n))
    let leaf ← reshapeTo n z
    let rest ← unflattenCpxC ns (start + 2 * n) P
    return leaf :: rest

/-- vqs.py:430-444 `_param_unflatten` with a complex vector, real networks: the leaves are complex arrays. -/
def unflattenRealC : List ℕ → ℕ → List ℂ → Except PyErr (List (List ℂ))
  | [], _, _ => .ok []
  | n :: ns, start, P => do
    let leaf ← reshapeTo n (pySlice P start (start + n))
    let rest ← unflattenRealC ns (start + n) P
    return leaf :: rest

/-- vqs.py:430-444 `_param_unflatten` with a complex vector. -/
noncomputable def paramUnflattenC (realParams : Bool) (sizes : List ℕ) (P : List ℂ) : Except PyErr Params :=
  if realParams then do return .cpx (← unflattenRealC sizes 0 P)
  else do return .cpx (← unflattenCpxC sizes 0 P)

/-- vqs.py:409-425 `set_parameters` with a complex vector. -/
noncomputable def setParametersC (P : List ℂ) : PsiM Unit := do
  match ← get with
  | none => throw .runtimeError
  | some st =>
    match paramUnflattenC st.realParams st.sizes P with
    | .error e => throw e
    | .ok p => setParams p

/-- The interface of `psi` and a `MinSR` object (minsr.py:29-158), which has neither `diagonalShift` nor
`set_diagonal_shift`, on rank `r`; `meas` is `measure` (it does not change `psi`). Simplification: the search is
not followed further when it continues with a real network that has got complex arrays as parameters
(`.noReturn`); in all other cases the vector `p` given to the equation is real. -/
noncomputable def minsrApi {Q : Type} {n : ℕ} {smp : Type} (env : TdvpEnv n smp) (cfg : MinSRCfg) (r : ℕ)
    (meas : NqsState → smp → Except PyErr (Q × smp)) :
    GsApi (Fin (n + 1) → ℂ) Q (NqsState × MinSRAttrs × smp) where
  hasShift := false
  hasSetter := false
  getParams w := match w.1 with
    | none => .error .typeError
    | some st =>
      if st.realParams = st.params.isReal then
        match (getParameters.call w.1).1 with
        | .error e => .error e
        | .ok none => .error .typeError
        | .ok (some v) =>
          if h : v.length = n + 1 then .ok fun i => ((v[i]'(by omega) : ℝ) : ℂ) else .error .broadcastError
      else .error .noReturn
  rhs _ p k w :=
    match (minsrCall env cfg r (List.ofFn fun i => (p i).re) 0 (some k) w.2.2 w.2.1).call w.1 with
    | (.error e, _) => .error e
    | (.ok (u, at₁, sm), st) => .ok (u, (st, at₁, sm))
  setParams p w := match (setParametersC (List.ofFn p)).call w.1 with
    | (.error e, _) => .error e
    | (.ok (), st) => .ok (st, w.2)
  variance w := match w.2.1 with
    | none => .error .attributeError
    | some x => .ok (some x.2)
  measure w := do
    let (obs, sm) ← meas w.1 w.2.2
    return (obs, (w.1, w.2.1, sm))

end JVMC

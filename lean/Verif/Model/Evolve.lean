import Verif.Model.Script

/-!
# Model of the script `examples/ex2_unitary_time_evolution.py`

`meas` is `measure(observables, psi, sampler)` (`jVMC/util/util.py:8-40`). The initial state is the one after the first
measurement has evaluated `psi`, so `psi` is initialised.
-/

namespace JVMC

variable {n : ℕ} {smp O : Type}

/-- The variables of the script: time, `psi`, the sampler and the attributes of the TDVP object, the stepper, and the
rows of `data`. (ex2_unitary_time_evolution.py:49-63) -/
structure Evo (n : ℕ) (smp O : Type) where
  t : ℝ
  psi : NqsState
  rhs : smp × TdvpAttrs n
  stepper : AHeun
  data : List (ℝ × O)

/-- One pass of the loop: `dp, dt = stepper.step(0, tdvpEquation, psi.get_parameters(), ...)`, which are JAX arrays,
`psi.set_parameters(dp)`, `t += dt`, a measurement and a new row. Simplifications: the script ends if the time step of the
stepper is NaN (C49: it never is); `print` and plots are left out. (ex2_unitary_time_evolution.py:71-95) -/
noncomputable def evoPass (env : TdvpEnv n smp) (cfg : TdvpCfg n) (r : ℕ) (norm : (Fin (n + 1) → ℝ) → ℝ)
    (meas : NqsState → smp → Except PyErr (O × smp)) (x : Evo n smp O) : Except PyErr (Evo n smp O) :=
  match getParameters.call x.psi with
  | (.error e, _) => .error e
  | (.ok none, _) => .error .typeError
  | (.ok (some v), psi) =>
    match ahStep false x.stepper 0 (refRhs (tdvpRhs env cfg r)) 0 norm ([fun i => v.getD i 0], .ok (psi, x.rhs)) with
    | .error e => .error e
    | .ok (_, (_, .error e)) => .error e
    | .ok ((_, _, none), _) => .error .noReturn
    | .ok ((y, d, some obj), (_, .ok (psi, sm, at₁))) =>
      match (setParameters (.vec (List.ofFn y))).call psi with
      | (.error e, _) => .error e
      | (.ok _, psi) =>
        match meas psi sm with
        | .error e => .error e
        | .ok (o, sm) => .ok ⟨x.t + d, psi, (sm, at₁), obj, x.data ++ [(x.t + d, o)]⟩

/-- `while t < tmax`. (ex2_unitary_time_evolution.py:71) -/
noncomputable def evoGoesOn (tmax : ℝ) (s : Except PyErr (Evo n smp O)) : Bool :=
  match s with
  | .error _ => false
  | .ok x => decide (x.t < tmax)

/-- The body of the loop; an exception ends the script. (ex2_unitary_time_evolution.py:71-95) -/
noncomputable def evoBody (env : TdvpEnv n smp) (cfg : TdvpCfg n) (r : ℕ) (norm : (Fin (n + 1) → ℝ) → ℝ)
    (meas : NqsState → smp → Except PyErr (O × smp)) : Except PyErr (Evo n smp O) → Except PyErr (Evo n smp O)
  | .error e => .error e
  | .ok x => evoPass env cfg r norm meas x

/-- The script from the first measurement on. `.error .noReturn` if the loop never ends.
(ex2_unitary_time_evolution.py:55-95) -/
noncomputable def evolveScript (env : TdvpEnv n smp) (cfg : TdvpCfg n) (r : ℕ) (norm : (Fin (n + 1) → ℝ) → ℝ)
    (meas : NqsState → smp → Except PyErr (O × smp)) (tmax : ℝ) (stepper : AHeun) (psi : NqsState) (sm : smp)
    (at₀ : TdvpAttrs n) : Except PyErr (Evo n smp O) :=
  match meas psi sm with
  | .error e => .error e
  | .ok (o, sm) =>
    match whileLoop (evoGoesOn tmax) (evoBody env cfg r norm meas) (.ok ⟨0, psi, (sm, at₀), stepper, [(0, o)]⟩) with
    | none => .error .noReturn
    | some s => s

end JVMC

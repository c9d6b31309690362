import Verif.Spec.Spmd
import Verif.Spec.Samples
import Verif.Model.SpmdRun

/-!
# Specification for C105: ranks stay in agreement during a whole simulation
-/

namespace JVMC.Spec

variable {N n : ℕ} {smp O : Type}

/-- The sampler always returns samples with nonnegative weights, at least one device per rank. -/
def MeasuresAlways (inv : (Fin N → smp) → Prop) (env : TdvpEnv n (Fin N → smp)) : Prop :=
  ∀ (p : Params) (sm : Fin N → smp) (t : ℝ), inv sm → ∃ joint sm', env.measure p sm t = .ok (joint, sm') ∧
    (∀ rk ∈ joint, rk ≠ []) ∧ ∀ s ∈ allSamples joint, 0 ≤ s.1

/-- `measure` returns on all ranks, in step, with the same values `obs`; `meas r` describes the same from
the point of view of rank `r`, as a function of the samplers of all ranks. -/
def ObservesInStep (inv : (Fin N → smp) → Prop)
    (meas : ℕ → Params → (Fin N → smp) → Except PyErr (O × (Fin N → smp)))
    (measR : Params → smp → Prog (O × smp)) : Prop :=
  ∀ (p : Params) (sm : Fin N → smp), inv sm → ∃ obs sm', inv sm' ∧
    (∀ r : Fin N, meas r.val p sm = .ok (obs, sm')) ∧
    Lockstep (fun r => measR p (sm r)) fun r => (obs, sm' r)

/-- The results of `ground_state_search` on all ranks are the same: either the update had NaN entries, on
all of them, or the number of steps, the variance, the diagonal shift, the parameters of `psi` and all
recorded observables are the same on all ranks. -/
def SameSearch {A : Type} (v : Fin N → Option (GsState O (NqsState × A))) : Prop :=
  (∀ r, v r = none) ∨
  ∃ (steps : ℕ) (varE : Flt ℝ) (shift : ℝ) (psi : NqsState) (log : List (ℕ × O)),
    ∀ r, ∃ s, v r = some s ∧ s.n = steps ∧ s.varE = varE ∧ s.shift = shift ∧ s.w.1 = psi ∧ s.log = log

/-- The same for the time evolution: either it has stopped on all ranks, or the time, the stepper with its
time step, the parameters of `psi` and all recorded times and observables are the same on all ranks. -/
def SameEvolution (v : Fin N → Option (EvoState O (RankState n smp))) : Prop :=
  (∀ r, v r = none) ∨
  ∃ (t : ℝ) (stepper : StepperR) (psi : NqsState) (log : List (ℝ × O)),
    ∀ r, ∃ s, v r = some s ∧ s.t = t ∧ s.stepper = stepper ∧ s.w.1 = psi ∧ s.log = log

/-! ## What a simulation computes -/

section

variable {M V : Type} [AddCommGroup M] [Module ℝ M]

/-- Attempts of `AdaptiveHeun` with the step `dt`, at most `passes`: a Heun step `dt` and two Heun steps `dt/2`
from `y`; when the norm of the difference exceeds the tolerance, again with a smaller step. `g y t k` is the `k`-th
evaluation of the right-hand side, `none`: NaN. Returned are the result of the two half steps, the step, the
next step and what the right-hand side has stored. -/
noncomputable def adapt (g : M → ℝ → ℕ → V → Option (M × V)) (norm : V → M → ℝ) (obj : AHeun) (t : ℝ) (y : M) :
    ℕ → ℝ → V → Option (M × ℝ × Flt ℝ × V)
  | 0, _, _ => none
  | passes + 1, dt, s => do
    let (k0, s) ← g y t 0 s
    let (k1, s) ← g (y + dt • k0) (t + dt) 1 s
    let coarse := y + (dt / 2) • (k0 + k1)
    let (k10, s) ← g (y + (dt / 2) • k0) (t + dt / 2) 2 s
    let half := y + (dt / 4) • (k0 + k10)
    let (k01, s) ← g half (t + dt / 2) 3 s
    let (k11, s) ← g (half + (dt / 2) • k01) (t + dt) 4 s
    let fine := half + (dt / 4) • (k01 + k11)
    let quality := Num.quot obj.tolerance (norm s (fine - coarse))
    let next := (ahFactor quality).map fun c => min (dt * c) obj.maxStep
    match quality.below 1, next with
    | true, some d => adapt g norm obj t y passes d s
    | _, _ => some (fine, dt, next, s)

/-- One step: the new value, the step taken, the stepper afterwards, and what the right-hand side has stored. -/
noncomputable def oneStep (g : M → ℝ → ℕ → V → Option (M × V)) (norm : V → M → ℝ) (t : ℝ) (y : M) (s : V) :
    StepperR → Option (M × ℝ × StepperR × V)
  | .euler dt => do
    let (k, s) ← g y t 0 s
    some (y + dt • k, dt, .euler dt, s)
  | .heun dt => do
    let (k0, s) ← g y t 0 s
    let (k1, s) ← g (y + dt • k0) (t + dt) 1 s
    some (y + (dt / 2) • (k0 + k1), dt, .heun dt, s)
  | .adaptive obj passes => do
    let (y, d, next, s) ← adapt g norm obj t y passes obj.dt s
    match next with
    | none => none
    | some next => some (y, d, .adaptive { obj with dt := next } passes, s)

end

variable {smp' : Type}

/-- A call of the `TDVP` object of rank `r` at the parameters `y`; `none` when the update has NaN entries. -/
noncomputable def evaluate (env : TdvpEnv n smp') (cfg : TdvpCfg n) (r : ℕ) (y : Fin (n + 1) → ℝ) (t : ℝ) (k : ℕ)
    (x : RankState n smp') : Option ((Fin (n + 1) → ℝ) × RankState n smp') :=
  match (tdvpCall env cfg r (List.ofFn y) t (some k) x.2.2 x.2.1).call x.1 with
  | (.ok (some u, at₁, sm), psi) => some (u, (psi, at₁, sm))
  | _ => none

/-- The time evolution from the point of view of rank `r`, given the samplers of all ranks, for at most `passes`
steps: from the parameters of `psi` one step to new parameters, at which `measure` is evaluated. -/
noncomputable def evolution (env : TdvpEnv n smp') (cfg : TdvpCfg n) (r : ℕ)
    (norm : Option (Flt (TdvpEqn n)) → (Fin (n + 1) → ℝ) → ℝ)
    (meas : Params → smp' → Except PyErr (O × smp')) (tmax : ℝ) :
    ℕ → EvoState O (RankState n smp') → Option (EvoState O (RankState n smp'))
  | 0, x => some x
  | passes + 1, x =>
    open Classical in
    if x.t < tmax then do
      let y ← (rankParams x.w).toOption
      let (y, d, stepper, w) ← oneStep (evaluate env cfg r) (fun w => norm w.2.1.eqn) x.t y x.w x.stepper
      let w ← (rankSet y w).toOption
      let (obs, sm) ← (psiMeasure meas w.1 w.2.2).toOption
      evolution env cfg r norm meas tmax passes ⟨x.t + d, stepper, (w.1, w.2.1, sm), x.log ++ [(x.t + d, obs)]⟩
    else some x

/-- The whole simulation: `measure`, then the time evolution. -/
noncomputable def simulation (env : TdvpEnv n smp') (cfg : TdvpCfg n) (r : ℕ)
    (norm : Option (Flt (TdvpEqn n)) → (Fin (n + 1) → ℝ) → ℝ)
    (meas : Params → smp' → Except PyErr (O × smp')) (tmax : ℝ) (passes : ℕ) (t : ℝ) (stepper : StepperR)
    (w : RankState n smp') : Option (EvoState O (RankState n smp')) := do
  let (obs, sm) ← (psiMeasure meas w.1 w.2.2).toOption
  evolution env cfg r norm meas tmax passes ⟨t, stepper, (w.1, w.2.1, sm), [(t, obs)]⟩

end JVMC.Spec

import Verif.Model.GroundState
import Verif.Model.Ising

/-!
# Model of the ground state search in `examples/ex0_ground_state_search.py`

The Hamiltonian is modelled in Model/Ising. The plots are not modelled.
-/

namespace JVMC

/-- `energy_single_p_mode`. (ex0_ground_state_search.py:41-42) -/
noncomputable def energySinglePMode (ht p : ℝ) : ℝ := √(1 + ht ^ 2 - 2 * ht * Real.cos p)

/-- `np.arange(start, stop, step)` for integers and a positive step. (ex0_ground_state_search.py:46) -/
def npArange (start stop step : ℤ) : List ℤ :=
  (List.range ((stop - start + step - 1) / step).toNat).map fun k : ℕ => start + step * (k : ℤ)

/-- The momenta `Ps`. (ex0_ground_state_search.py:46-47) -/
noncomputable def isingMomenta (N : ℕ) : List ℝ :=
  (npArange (-((N : ℤ) - 1)) ((N : ℤ) - 1 + 2) 2).map fun k : ℤ => 1 / 2 * (k : ℝ) * 2 * Real.pi / N

/-- `ground_state_energy_per_site`. Simplification: exact real numbers; `N` is positive. (ex0_ground_state_search.py:45-49) -/
noncomputable def groundStateEnergyPerSite (ht : ℝ) (N : ℕ) : ℝ :=
  -1 / (N : ℝ) * ((isingMomenta N).map fun p => energySinglePMode ht p).sum

/-- A row of `res`: the number of the step and `ElocMean0`, `ElocVar0` (which may be NaN) per site.
(ex0_ground_state_search.py:80) -/
noncomputable def searchRow {n : ℕ} (L k : ℕ) (at₀ : TdvpAttrs n) : Except PyErr (ℕ × Flt (ℝ × ℝ)) :=
  match at₀.eloc0 with
  | none => .error .attributeError
  | some x => .ok (k, x.map fun e => (e.1.re / L, e.2 / L))

/-- One pass of the loop: a step of `Euler` (stepper.py:38-40) with the TDVP object, `set_parameters`, a row.
Simplification: an update with NaN entries ends the search (see `tdvpApi`). (ex0_ground_state_search.py:73-80) -/
noncomputable def searchPass {n : ℕ} {smp : Type} (env : TdvpEnv n smp) (cfg : TdvpCfg n) (r L : ℕ) (timeStep : ℝ)
    (x : List (ℕ × Flt (ℝ × ℝ)) × NqsState × TdvpAttrs n × smp) (k : ℕ) :
    Except PyErr (List (ℕ × Flt (ℝ × ℝ)) × NqsState × TdvpAttrs n × smp) := do
  let api := tdvpApi env cfg r fun _ sm => .ok ((), sm)
  let p ← api.getParams x.2
  let (dp, w) ← api.rhs cfg.diagonalShift p 0 x.2
  let w ← api.setParams (p + timeStep • dp) w
  let row ← searchRow L k w.2.1
  return (x.1 ++ [row], w)

/-- The search: `res` and `psi`, the TDVP object and the sampler at the end. (ex0_ground_state_search.py:72-80) -/
noncomputable def searchScript {n : ℕ} {smp : Type} (env : TdvpEnv n smp) (cfg : TdvpCfg n) (r L : ℕ) (timeStep : ℝ) (nSteps : ℕ)
    (w : NqsState × TdvpAttrs n × smp) : Except PyErr (List (ℕ × Flt (ℝ × ℝ)) × NqsState × TdvpAttrs n × smp) :=
  (List.range nSteps).foldlM (searchPass env cfg r L timeStep) ([], w)

end JVMC

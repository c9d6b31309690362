import Verif.Model.GroundState

/-!
# Specification of a stochastic reconfiguration step
-/

namespace JVMC.Spec

variable {P O W : Type} [AddCommGroup P] [Module ℝ P]

/-- Measuring and recording at step `n` takes `w` to `w'` and adds `entries` to the record. -/
def Recorded (api : GsApi P O W) (record : Bool) (n : ℕ) (w w' : W) (entries : List (ℕ × O)) : Prop :=
  if record then ∃ obs, api.measure w = .ok (obs, w') ∧ entries = [(n, obs)]
  else w' = w ∧ entries = []

/-- One update: the parameters `p` become `p + stepSize * update`, where the update is that of the
equation with the given diagonal shift; `v` is the variance it reports, `w'` the state after it. -/
def SrUpdate (api : GsApi P O W) (stepSize shift : ℝ) (w w' : W) (v : Flt ℝ) : Prop :=
  ∃ p dp w₁, api.getParams w = .ok p ∧ api.rhs shift p 0 w = .ok (dp, w₁) ∧
    api.setParams (p + stepSize • dp) w₁ = .ok w' ∧ api.variance w' = .ok v

/-- The variance is above the tolerance (not NaN). -/
def Above (v : Flt ℝ) (tol : ℝ) : Prop := ∃ x, v = some x ∧ tol < x

end JVMC.Spec

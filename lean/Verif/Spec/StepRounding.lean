import Verif.Spec.Ode

/-!
# Rounding errors of time integration
-/

namespace JVMC.Spec

variable {M : Type} [NormedAddCommGroup M] [NormedSpace ℝ M]

/-- Everything within distance `R` of the solution is at most `B` large. -/
def BoundedNear (y : ℝ → M) (a b R B : ℝ) : Prop :=
  ∀ t ∈ Set.Icc a b, ∀ x, ‖x - y t‖ ≤ R → ‖x‖ ≤ B

/-- Every evaluation of the right-hand side within distance `R` of the solution deviates from `G` by at
most `ε` and is at most `V` large, whatever the time and the state of the evaluation. -/
def EvaluatesWithin {σ : Type} (f : M → ℝ → ℕ → σ → M × σ) (G : M → M) (y : ℝ → M)
    (a b R ε V : ℝ) : Prop :=
  0 ≤ ε ∧ ∀ t ∈ Set.Icc a b, ∀ x t' k s, ‖x - y t‖ ≤ R →
    ‖(f x t' k s).1 - G x‖ ≤ ε ∧ ‖(f x t' k s).1‖ ≤ V

/-- What rounding errors add to the error of the right-hand side in an Euler step: relative errors of at most `u` in
numbers of size `B` (divided by the time step) and `V`. -/
noncomputable def eulerRounding (u B V dt : ℝ) : ℝ := u * (B / dt + 3 * V)

/-- The same for a Heun step. -/
noncomputable def heunRounding (u B V dt : ℝ) : ℝ := u * (3 * B / dt + 33 * V)

/-- All steps of a stepper return the time step `dt`. -/
def FixedStep {M σ : Type} (step : M → σ → (M × ℝ) × σ → Prop) (dt : ℝ) : Prop :=
  ∀ y s o, step y s o → o.1.2 = dt

end JVMC.Spec

import Mathlib.Analysis.Calculus.Deriv.Basic
import Mathlib.Analysis.Normed.Module.Basic
import Mathlib.Analysis.SpecialFunctions.Exp

/-!
# Solutions of differential equations
-/

namespace JVMC.Spec

variable {M : Type} [NormedAddCommGroup M] [NormedSpace ℝ M]

/-- `y` solves `dy/dt = F(y, t)` between the times `a` and `b`. -/
def IsSolution (F : M → ℝ → M) (y : ℝ → M) (a b : ℝ) : Prop :=
  ∀ t ∈ Set.Icc a b, HasDerivWithinAt y (F (y t) t) (Set.Icc a b) t

/-- Within distance `R` of the solution, `F` is Lipschitz continuous with constant `L`. -/
def LipschitzNear (F : M → ℝ → M) (y : ℝ → M) (a b R L : ℝ) : Prop :=
  0 ≤ L ∧ ∀ t ∈ Set.Icc a b, ∀ x z, ‖x - y t‖ ≤ R → ‖z - y t‖ ≤ R → ‖F x t - F z t‖ ≤ L * ‖x - z‖

/-- The velocity changes at most at rate `K`. -/
def SlowVelocity (F : M → ℝ → M) (y : ℝ → M) (a b K : ℝ) : Prop :=
  0 ≤ K ∧ ∀ s ∈ Set.Icc a b, ∀ t ∈ Set.Icc a b, ‖F (y s) s - F (y t) t‖ ≤ K * |s - t|

/-- The velocity has a derivative, which changes at most at rate `K`. -/
def SlowAcceleration (F : M → ℝ → M) (y : ℝ → M) (a b K : ℝ) : Prop :=
  0 ≤ K ∧ ∃ y2 : ℝ → M,
    (∀ t ∈ Set.Icc a b, HasDerivWithinAt (fun s => F (y s) s) (y2 t) (Set.Icc a b) t) ∧
    ∀ s ∈ Set.Icc a b, ∀ t ∈ Set.Icc a b, ‖y2 s - y2 t‖ ≤ K * |s - t|

/-- Every evaluation of the right-hand side within distance `R` of the solution deviates from `F` by
at most `ε`, whatever the state of the evaluation (e.g. of the sampler) is. -/
def EvaluatesNear {σ : Type} (f : M → ℝ → ℕ → σ → M × σ) (F : M → ℝ → M) (y : ℝ → M)
    (a b R ε : ℝ) : Prop :=
  0 ≤ ε ∧ ∀ t ∈ Set.Icc a b, ∀ x k s, ‖x - y t‖ ≤ R → ‖(f x t k s).1 - F x t‖ ≤ ε

/-- What an initial error `e₀` and errors that enter at a `rate` can amount to after time `τ`, if errors
grow at most at rate `growth`. -/
noncomputable def accumulated (growth rate e₀ τ : ℝ) : ℝ := Real.exp (growth * τ) * (e₀ + τ * rate)

end JVMC.Spec

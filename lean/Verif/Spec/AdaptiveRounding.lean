import Mathlib.Analysis.Normed.Module.Basic
import Mathlib.Analysis.SpecialFunctions.Pow.Real

/-!
# Adaptive time steps with rounding errors
-/

namespace JVMC.Spec

variable {M : Type} [NormedAddCommGroup M] [NormedSpace ℝ M]

/-- One Heun step of size `h`. -/
noncomputable def heunOnce (G : M → ℝ → M) (t h : ℝ) (y : M) : M := y + (h / 2) • (G y t + G (y + h • G y t) (t + h))

/-- Two Heun steps of half the size. -/
noncomputable def heunTwice (G : M → ℝ → M) (t h : ℝ) (y : M) : M := heunOnce G (t + h / 2) (h / 2) (heunOnce G t (h / 2) y)

/-- The machine's `x**0.33333` has a relative error of at most `v`. -/
def PowWithin (v : ℝ) (pow : ℝ → ℝ) : Prop := ∀ x, 0 < x → |pow x - x ^ (0.33333 : ℝ)| ≤ v * x ^ (0.33333 : ℝ)

/-- The machine's norm is comparable to the largest modulus. -/
def NormLike (c C : ℝ) (norm : M → ℝ) : Prop := ∀ x, c * ‖x‖ ≤ norm x ∧ norm x ≤ C * ‖x‖

/-- Every evaluation of the right-hand side within distance `R` of `y₀` is at most `V` large. -/
def RhsBounded {σ : Type} (f : M → ℝ → ℕ → σ → M × σ) (y₀ : M) (R V : ℝ) : Prop :=
  ∀ x t k s, ‖x - y₀‖ ≤ R → ‖(f x t k s).1‖ ≤ V

/-- Within distance `R` of `y₀` the evaluations deviate from `G` by at most `ε`, and `G` is bounded by `V` and Lipschitz. -/
structure RhsNear {σ : Type} (f : M → ℝ → ℕ → σ → M × σ) (G : M → ℝ → M) (y₀ : M) (R V L ε : ℝ) : Prop where
  near : ∀ x t k s, ‖x - y₀‖ ≤ R → ‖(f x t k s).1 - G x t‖ ≤ ε
  bound : ∀ x t, ‖x - y₀‖ ≤ R → ‖G x t‖ ≤ V
  lipschitz : ∀ x t x' t', ‖x - y₀‖ ≤ R → ‖x' - y₀‖ ≤ R → ‖G x t - G x' t'‖ ≤ L * (‖x - x'‖ + |t - t'|)

/-- The size of the error of an evaluation in a step: the error of the right-hand side and the rounding of its arguments. -/
noncomputable def evalError (u L ε V t h B : ℝ) : ℝ := ε + L * (3 * (u * (B + 4 * (h * V))) + 2 * (u * (|t| + h)))

/-- What rounding and errors of the right-hand side do to one adaptive step of size at most `h` (time-independent right-hand side
of size `V`, numbers of size `B`). -/
noncomputable def stepError (u L ε V h B : ℝ) : ℝ := 2 * (u * (B + 4 * (h * V))) + 2 * (h * evalError u L ε V 0 h B)

end JVMC.Spec

import Mathlib.Analysis.Complex.Exponential
import Mathlib.Algebra.BigOperators.Group.Finset.Basic

/-! # Specification vocabulary: accuracy of acceptance decisions -/

namespace JVMC.Spec

/-- An exponential function that errs by at most `v`, where arguments above 1 count as 1. It may overflow and underflow. -/
def ExpWithin (v : ℝ) (e : ℝ → ℝ) : Prop := ∀ x, 0 ≤ e x ∧ |min 1 (e x) - min 1 (Real.exp x)| ≤ v

/-- The numbers `l` approximate `lw` on `X` with an error of at most `a`, and differ by at most `R` among each other. -/
def LogsWithin {S : Type*} (X : Finset S) (lw : S → ℝ) (a R : ℝ) (l : S → ℝ) : Prop :=
  (∀ s ∈ X, |l s - lw s| ≤ a) ∧ ∀ s ∈ X, ∀ t ∈ X, |l s - l t| ≤ R

/-- Bound of the error of one acceptance probability: errors `a` of two logarithms, the rounding error `u` of their difference,
the error `v` of the exponential function, and the grid of the uniform numbers. -/
noncomputable def acceptError (a R u v : ℝ) : ℝ := 2 * a + u * R + v + (2 : ℝ)⁻¹ ^ 52

/-- A probability distribution on the finite set `Y`. -/
def IsDist {T : Type*} (Y : Finset T) (μ : T → ℝ) : Prop := (∀ s ∈ Y, 0 ≤ μ s) ∧ ∑ s ∈ Y, μ s = 1

end JVMC.Spec

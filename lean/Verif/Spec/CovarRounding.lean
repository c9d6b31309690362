import Mathlib.Analysis.Complex.Norm
import Verif.Spec.Samples

/-! # Specification for C137: errors of covariances -/

namespace JVMC.Spec

variable {ι κ : Type}

/-- The standard deviation of component `i`. -/
noncomputable def deviation (l : List (ℝ × (ι → ℂ))) (i : ι) : ℝ := Real.sqrt (wVar l i)

/-- The mean of the absolute value of component `i`. -/
noncomputable def size (l : List (ℝ × (ι → ℂ))) (i : ι) : ℝ := (l.map fun s => s.1 * ‖s.2 i‖).sum

/-- The sum of the weights (one, if they are normalised). -/
def mass {A : Type} (l : List (ℝ × A)) : ℝ := (l.map fun s => s.1).sum

/-- The standard deviation, enlarged by the error that `K` relative errors `u` make in the mean. -/
noncomputable def enlarged (u : ℝ) (K : ℕ) (l : List (ℝ × (ι → ℂ))) (i : ι) : ℝ :=
  deviation l i + ((1 + u) ^ K - 1) * size l i * Real.sqrt (mass l)

/-- The error of a covariance: a relative error with factor `F`, and the errors of the two means. -/
noncomputable def covError (u F : ℝ) (K : ℕ) (l : List (ℝ × (ι → ℂ))) (l' : List (ℝ × (κ → ℂ))) (i : ι) (k : κ) : ℝ :=
  F * (enlarged u K l i * enlarged u K l' k) - deviation l i * deviation l' k

/-- The factor of the rounding errors of a covariance, with `n` samples on a device, `d` devices on a rank, `k` ranks: three
roundings in each of the two factors, and those of the sum of products. -/
def covFactor (u : ℝ) (n d k : ℕ) : ℝ := (1 + u) ^ 6 * (1 + 2 * ((1 + u) ^ (2 * n + d + k - 2) - 1))

/-- `ab` computes absolute values with relative error `δ`. -/
def AbsWithin (δ : ℝ) (ab : ℂ → ℝ) : Prop := ∀ z, |ab z - ‖z‖| ≤ δ * ‖z‖

end JVMC.Spec

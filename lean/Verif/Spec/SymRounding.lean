import Verif.Model.SymRounding

/-!
# Specification: symmetrised coefficients
-/

namespace JVMC.Spec

/-- The image of a configuration of spins 0, 1 under a matrix that permutes the sites or flips spins, which acts on ±1. -/
def spinImage {n : ℕ} (o : Matrix (Fin n) (Fin n) ℤ) (x : Fin n → ℤ) : Fin n → ℤ :=
  fun i => Int.fdiv (o.mulVec (fun j => 2 * x j - 1) i + 1) 2

/-- The logarithm of the sum of the amplitudes `exp c` with weights `b`. -/
noncomputable def logSum {K : ℕ} (c b : Fin K → ℝ) : ℝ := Real.log (∑ k, b k * Real.exp (c k))

/-- The relative error of the sum: precision `u` of the arithmetic and `v` of the elementary functions, `K` coefficients of size `M`. -/
noncomputable def ampSumError (u v M : ℝ) (K : ℕ) : ℝ := 2 * u * M + 2 * v + 2 * u * K

/-- The error of the logarithm of the sum, if the logarithms of the weights have size `Λ`. -/
noncomputable def symError (u v M Λ : ℝ) (K : ℕ) : ℝ :=
  ampSumError u v M K + v * (Λ + ampSumError u v M K) + u * ((1 + v) * (Λ + ampSumError u v M K) + M)

/-- The error of half the logarithm of the mean of the probabilities. -/
noncomputable def sepError (u v M : ℝ) (K : ℕ) : ℝ :=
  (ampSumError u v M K + (v + u * (1 + v)) * (2 * M + ampSumError u v M K)) / 2

/-- Weights between `exp (-Λ)` and with a sum of at most `exp Λ`. -/
def WeightsWithin {K : ℕ} (b : Fin K → ℝ) (Λ : ℝ) : Prop := (∀ k, Real.exp (-Λ) ≤ b k) ∧ ∑ k, b k ≤ Real.exp Λ

end JVMC.Spec

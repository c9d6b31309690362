import Mathlib.Analysis.SpecialFunctions.Exp
import Mathlib.Data.Complex.Basic

/-! # Specification vocabulary: basis configurations and Born probabilities -/

namespace JVMC.Spec

/-- `c` is a basis configuration of `N` sites with local states `0, …, lDim - 1`. -/
def IsConfig (lDim N : ℕ) (c : List ℕ) : Prop := c.length = N ∧ ∀ x ∈ c, x < lDim

/-- `∑_s exp(Re log ψ(s) / f)`. -/
noncomputable def partitionSum (f : ℝ) (logPsi : List ℂ) : ℝ :=
  (logPsi.map fun z => Real.exp (z.re / f)).sum

/-- `exp(Re log ψ(s) / f) / ∑_s' exp(Re log ψ(s') / f)`. -/
noncomputable def bornProb (f : ℝ) (logPsi : List ℂ) (z : ℂ) : ℝ :=
  Real.exp (z.re / f) / partitionSum f logPsi

end JVMC.Spec

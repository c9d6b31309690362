import Mathlib.Analysis.SpecialFunctions.Exp
import Mathlib.Analysis.Complex.Exponential
import Mathlib.Data.List.Forall2

/-! # Specification vocabulary: accuracy of local estimators -/

namespace JVMC.Spec

/-- `∑ O_{s s'} ψ(s') / ψ(s)`, from matrix elements and logarithmic amplitudes. -/
noncomputable def localSum (logS : ℂ) (row : List (ℂ × ℂ)) : ℂ := (row.map fun p => p.1 * Complex.exp (p.2 - logS)).sum

/-- `∑ |O_{s s'} ψ(s') / ψ(s)|`. -/
noncomputable def localAbs (logS : ℂ) (row : List (ℂ × ℂ)) : ℝ := (row.map fun p => ‖p.1 * Complex.exp (p.2 - logS)‖).sum

/-- A complex exponential function with relative error `v`. -/
def CExpWithin (v : ℝ) (e : ℂ → ℂ) : Prop := ∀ z, ‖e z - Complex.exp z‖ ≤ v * ‖Complex.exp z‖

/-- The computed matrix elements have relative errors of at most `b`, the computed logarithmic amplitudes errors of at most `a`;
the exact logarithmic amplitudes differ by at most `D`. -/
def RowWithin (a b D : ℝ) (logS logS' : ℂ) (row row' : List (ℂ × ℂ)) : Prop :=
  ‖logS' - logS‖ ≤ a ∧ List.Forall₂ (fun p p' => ‖p'.1 - p.1‖ ≤ b * ‖p.1‖ ∧ ‖p'.2 - p.2‖ ≤ a ∧ ‖p.2 - logS‖ ≤ D) row row'

/-- Bound of the relative error of one term: errors of the matrix element, of the exponential function, of the logarithmic
amplitudes and their difference, and of the product. -/
noncomputable def termFactor (u a b v D : ℝ) : ℝ :=
  (1 + b) * (1 + v) * Real.exp (2 * a + u * (D + 2 * a)) * (1 + 2 * ((1 + u) ^ 2 - 1))

end JVMC.Spec

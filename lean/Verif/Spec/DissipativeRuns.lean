import Mathlib.Analysis.Calculus.FDeriv.Basic
import Verif.Spec.MasterTdvp

/-!
# Specification for C118: rate equations, smooth networks, samples with statistical errors
-/

namespace JVMC.Spec

variable {C : Type} [Fintype C] [DecidableEq C]

/-- The weights sum to one, and give every outcome its probability `p` up to the relative error `ε`. -/
structure NearDistribution (ε : ℝ) (p : C → ℝ) (l : List (ℝ × C)) : Prop where
  nonneg : ∀ x ∈ l, 0 ≤ x.1
  total : (l.map Prod.fst).sum = 1
  near : ∀ s, |weightOf l s - p s| ≤ ε * p s

/-- Between two solutions of `dq/dt = A q` the distance `∑ |q|` grows at most at the rate `K`:
in every column, the diagonal element and the moduli of the others sum to at most `K`. -/
def GrowthAtMost (A : Matrix C C ℝ) (K : ℝ) : Prop :=
  ∀ s', A s' s' + ∑ s ∈ Finset.univ.erase s', |A s s'| ≤ K

/-- For parameters in `D`, the logarithmic probabilities are differentiable, their derivatives are bounded by
`G` and change at most at rate `Λ`. -/
structure SmoothLog {n : ℕ} {C : Type} (logP : (Fin n → ℝ) → C → ℝ) (D : Set (Fin n → ℝ)) (G Λ : ℝ) : Prop where
  bound_nonneg : 0 ≤ G
  rate_nonneg : 0 ≤ Λ
  differentiable : ∀ θ ∈ D, ∀ s, DifferentiableAt ℝ (fun p => logP p s) θ
  bound : ∀ θ ∈ D, ∀ s v, |fderiv ℝ (fun p => logP p s) θ v| ≤ G * ‖v‖
  rate : ∀ θ ∈ D, ∀ θ' ∈ D, ∀ s v,
    |fderiv ℝ (fun p => logP p s) θ' v - fderiv ℝ (fun p => logP p s) θ v| ≤ Λ * ‖θ' - θ‖ * ‖v‖

end JVMC.Spec

import Mathlib.Analysis.Calculus.Deriv.Basic
import Mathlib.Analysis.SpecialFunctions.Exp
import Mathlib.Data.Matrix.Mul
import Verif.Spec.Variational

/-!
# Distributions of outcomes and how they change

Textbook definitions, independent of the code. Distributions on a finite set `C` of outcomes; rate
equations `dP/dt = A P`.
-/

namespace JVMC.Spec

open Matrix

variable {C : Type} [Fintype C]

/-- The distribution `exp(log P) / ∑ exp(log P)` that a real network stands for. -/
noncomputable def distribution (logP : C → ℝ) (s : C) : ℝ := Real.exp (logP s) / ∑ c, Real.exp (logP c)

/-- The velocity of the distribution if the parameters `θ` move with velocity `v`. -/
noncomputable def probVelocity {n : ℕ} (logP : (Fin n → ℝ) → C → ℝ) (θ v : Fin n → ℝ) (s : C) : ℝ :=
  deriv (fun τ : ℝ => distribution (logP (θ + τ • v)) s) 0

/-- The squared length of a change `r` of the distribution `p` in the Fisher-Rao metric. -/
noncomputable def fisherLength (p r : C → ℝ) : ℝ := ∑ s, r s ^ 2 / p s

/-- The average of `o` in the distribution `p`. -/
noncomputable def outcomeMean (p o : C → ℝ) : ℝ := ∑ s, p s * o s

/-- The variance of `o` in the distribution `p`. -/
noncomputable def outcomeVar (p o : C → ℝ) : ℝ := ∑ s, p s * (o s - outcomeMean p o) ^ 2

/-- The weights represent the distribution `p` without statistical error. -/
structure ExactWeights [DecidableEq C] (p : C → ℝ) (l : List (ℝ × C)) : Prop where
  nonneg : ∀ x ∈ l, 0 ≤ x.1
  exact : ∀ s, weightOf l s = p s

/-- Rate equations that conserve the total probability. -/
def Conserves (A : Matrix C C ℝ) : Prop := ∀ s', ∑ s, A s s' = 0

/-- `q` solves `dq/dt = A q` from time `0` to `T`. -/
def RateSolution (A : Matrix C C ℝ) (q : ℝ → C → ℝ) (T : ℝ) : Prop :=
  ∀ t ∈ Set.Icc 0 T, ∀ s, HasDerivWithinAt (fun τ => q τ s) ((A *ᵥ q t) s) (Set.Icc 0 T) t

/-- `∑ |q - p|`: twice the total variation distance. -/
def l1Distance (q p : C → ℝ) : ℝ := ∑ s, |q s - p s|

end JVMC.Spec

import Mathlib.Analysis.Calculus.Deriv.Basic
import Mathlib.Analysis.Complex.Basic

/-! # What a user means by the gradient of `log ψ` -/

namespace JVMC.Spec

/-- `g` is the list of partial derivatives at the vector `v` of a function of a vector. -/
def IsGradient (logPsi : List ℝ → ℂ) (v : List ℝ) (g : List ℂ) : Prop :=
  g.length = v.length ∧
    ∀ k (hk : k < v.length) (hg : k < g.length),
      HasDerivAt (fun t : ℝ => logPsi (v.set k (v[k] + t))) g[k] 0

/-- All partial derivatives of a function of a vector exist at `v`. -/
def HasPartials (logPsi : List ℝ → ℂ) (v : List ℝ) : Prop :=
  ∀ k (hk : k < v.length), DifferentiableAt ℝ (fun t : ℝ => logPsi (v.set k (v[k] + t))) 0

end JVMC.Spec

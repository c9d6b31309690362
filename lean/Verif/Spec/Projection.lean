import Mathlib.Analysis.Calculus.Deriv.Basic
import Mathlib.Analysis.SpecialFunctions.Exp
import Verif.Spec.Variational

/-!
# Velocities of states, up to norm and phase

A multiple of `ψ` in `dψ/dt` changes norm and phase of `ψ` only, so velocities are compared by their
components orthogonal to `ψ`.
-/

namespace JVMC.Spec

variable {C : Type} [Fintype C]

/-- The squared length of the component of `φ` orthogonal to `ψ`, in units of the length of `ψ`. -/
noncomputable def offRay (ψ φ : C → ℂ) : ℝ :=
  norm2 (fun s => φ s - ((∑ c, (starRingEnd ℂ) (ψ c) * φ c) / (norm2 ψ : ℂ)) * ψ s) / norm2 ψ

/-- The velocity of the state `exp(log ψ_θ)` if the parameters `θ` move with velocity `v`. -/
noncomputable def stateVelocity {n : ℕ} (logPsi : (Fin n → ℝ) → C → ℂ) (θ v : Fin n → ℝ) (s : C) : ℂ :=
  deriv (fun τ : ℝ => Complex.exp (logPsi (θ + τ • v) s)) 0

end JVMC.Spec

import Verif.Spec.Fidelity

/-!
# Energy levels
-/

namespace JVMC.Spec

open Matrix

variable {C : Type} [Fintype C]

/-- `v` is a stationary state of the Hamiltonian `O` with energy `e`. -/
def Level (O : Matrix C C ℂ) (e : ℝ) (v : C → ℂ) : Prop := v ≠ 0 ∧ ∀ s, (O *ᵥ v) s = e * v s

/-- `v` is the ground state, its energy is `e₀`, and all excited states have at least energy `e₁ > e₀`. -/
structure GroundState (O : Matrix C C ℂ) (e₀ e₁ : ℝ) (v : C → ℂ) : Prop where
  level : Level O e₀ v
  gap : e₀ < e₁
  excited : ∀ e w, Level O e w → ∑ s, (starRingEnd ℂ) (v s) * w s = 0 → e₁ ≤ e

end JVMC.Spec

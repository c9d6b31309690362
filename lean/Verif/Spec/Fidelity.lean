import Mathlib.Analysis.Calculus.Deriv.Basic
import Mathlib.Analysis.SpecialFunctions.Sqrt
import Verif.Spec.Variational

/-!
# Exact evolution and distance of states
-/

namespace JVMC.Spec

open Matrix

variable {C : Type} [Fintype C]

/-- `φ` solves `dφ/dt = - x O(t) φ` from time `0` to `T`; with `x = i` this is the Schrödinger equation
of the Hamiltonian `O(t)`, which may depend on time. -/
def Evolves (O : ℝ → Matrix C C ℂ) (x : ℂ) (φ : ℝ → C → ℂ) (T : ℝ) : Prop :=
  ∀ t ∈ Set.Icc 0 T, ∀ s, HasDerivWithinAt (fun τ => φ τ s) (-x * (O t *ᵥ φ t) s) (Set.Icc 0 T) t

/-- `|⟨φ|ψ⟩|² / (⟨φ|φ⟩ ⟨ψ|ψ⟩)`. -/
noncomputable def fidelity (φ ψ : C → ℂ) : ℝ :=
  Complex.normSq (∑ s, (starRingEnd ℂ) (φ s) * ψ s) / (norm2 φ * norm2 ψ)

/-- The distance of two states up to norm and phase: 0 for the same state, 1 for orthogonal ones. -/
noncomputable def stateDistance (φ ψ : C → ℂ) : ℝ := √(1 - fidelity φ ψ)

/-- `‖A v‖ ≤ M ‖v‖` for all `v`. -/
def NormAtMost (A : Matrix C C ℂ) (M : ℝ) : Prop := 0 ≤ M ∧ ∀ v, norm2 (A *ᵥ v) ≤ M ^ 2 * norm2 v

end JVMC.Spec

import Mathlib.Analysis.Calculus.FDeriv.Basic
import Mathlib.Analysis.Complex.Basic
import Mathlib.LinearAlgebra.Matrix.Hermitian
import Verif.Spec.Fidelity

/-!
# Smooth networks and Hamiltonians
-/

namespace JVMC.Spec

/-- For parameters in `D`, the log-amplitudes are differentiable, their derivatives are bounded by `G` and
change at most at rate `Λ`. -/
structure SmoothOn {n : ℕ} {C : Type} (logPsi : (Fin n → ℝ) → C → ℂ) (D : Set (Fin n → ℝ)) (G Λ : ℝ) : Prop where
  bound_nonneg : 0 ≤ G
  rate_nonneg : 0 ≤ Λ
  differentiable : ∀ θ ∈ D, ∀ s, DifferentiableAt ℝ (fun p => logPsi p s) θ
  bound : ∀ θ ∈ D, ∀ s v, ‖fderiv ℝ (fun p => logPsi p s) θ v‖ ≤ G * ‖v‖
  rate : ∀ θ ∈ D, ∀ θ' ∈ D, ∀ s v,
    ‖fderiv ℝ (fun p => logPsi p s) θ' v - fderiv ℝ (fun p => logPsi p s) θ v‖ ≤ Λ * ‖θ' - θ‖ * ‖v‖

/-- Between the times `0` and `T`, the Hamiltonian is Hermitian, its norm is at most `M` and it changes at most
at rate `h`. -/
structure SlowHamiltonian {C : Type} [Fintype C] (H : ℝ → Matrix C C ℂ) (T M h : ℝ) : Prop where
  rate_nonneg : 0 ≤ h
  hermitian : ∀ t ∈ Set.Icc 0 T, (H t).IsHermitian
  bound : ∀ t ∈ Set.Icc 0 T, NormAtMost (H t) M
  rate : ∀ t ∈ Set.Icc 0 T, ∀ t' ∈ Set.Icc 0 T, t ≤ t' → NormAtMost (H t' - H t) (h * (t' - t))

end JVMC.Spec

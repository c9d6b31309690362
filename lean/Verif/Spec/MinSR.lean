import Mathlib.Analysis.Complex.Norm
import Verif.Spec.Tdvp

/-!
# Sample-space quantities of the MinSR method
-/

namespace JVMC.Spec

variable {m : ℕ}

/-- Gradients minus their mean, per sample. The samples hold weight, local energy and gradients. -/
noncomputable def dGrad (l : List (ℝ × (Fin 1 → ℂ) × (Fin m → ℂ))) (s : ℝ × (Fin 1 → ℂ) × (Fin m → ℂ))
    (i : Fin m) : ℂ :=
  s.2.2 i - wMean (l.map fun s => (s.1, s.2.2)) i

/-- Local energy minus its mean, per sample. -/
noncomputable def dEloc (l : List (ℝ × (Fin 1 → ℂ) × (Fin m → ℂ))) (s : ℝ × (Fin 1 → ℂ) × (Fin m → ℂ)) :
    ℂ :=
  s.2.1 0 - wMean (l.map fun s => (s.1, s.2.1)) 0

/-- `T_ab = √(p_a p_b) ∑_i dO_i(a) conj(dO_i(b))`. -/
noncomputable def kernelOf (l : List (ℝ × (Fin 1 → ℂ) × (Fin m → ℂ))) :
    Matrix (Fin l.length) (Fin l.length) ℂ :=
  Matrix.of fun a b => (Real.sqrt l[a].1 : ℂ) * (Real.sqrt l[b].1 : ℂ) *
    ∑ i, dGrad l l[a] i * (starRingEnd ℂ) (dGrad l l[b] i)

/-- `∑_n p_n |∑_k dO_k(n) y_k + dE(n)|²`: how well an update `y` reproduces the exact step. -/
noncomputable def stepDistance (l : List (ℝ × (Fin 1 → ℂ) × (Fin m → ℂ))) (y : Fin m → ℂ) : ℝ :=
  (l.map fun s => s.1 * Complex.normSq (∑ k, dGrad l s k * y k + dEloc l s)).sum

/-- The ratio of any two eigenvalues of `T`, the upper one not zero, is above `tol`: the cutoff removes
no non-zero eigenvalue. -/
def SpectrumAbove {N : ℕ} (T : Matrix (Fin N) (Fin N) ℂ) (tol : ℝ) : Prop :=
  ∀ (a b : ℂ) (u v : Fin N → ℂ), u ≠ 0 → v ≠ 0 → T.mulVec u = a • u → T.mulVec v = b • v →
    a ≠ 0 → tol * ‖b‖ < ‖a‖

end JVMC.Spec

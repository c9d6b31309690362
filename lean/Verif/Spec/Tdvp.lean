import Mathlib.Analysis.Real.Sqrt
import Mathlib.Data.Complex.BigOperators
import Mathlib.LinearAlgebra.Matrix.ConjTranspose
import Verif.Spec.Samples

/-!
# Linear algebra for the time-dependent variational principle

Textbook definitions, independent of the code.
-/

namespace JVMC.Spec

variable {m : ℕ}

/-- An eigendecomposition `S = V diag(ev) V†` with a unitary `V` and increasing eigenvalues. -/
structure IsEigh (S : Matrix (Fin m) (Fin m) ℂ) (ev : Fin m → ℝ) (V : Matrix (Fin m) (Fin m) ℂ) :
    Prop where
  unitary : V.conjTranspose * V = 1
  decomp : S * V = V * Matrix.diagonal fun k => (ev k : ℂ)
  sorted : Monotone ev

/-- Euclidean norm. -/
noncomputable def euclid (v : Fin m → ℂ) : ℝ := Real.sqrt (∑ i, Complex.normSq (v i))

/-- `‖S x - F‖ / ‖F‖`. -/
noncomputable def relResidual (S : Matrix (Fin m) (Fin m) ℂ) (F x : Fin m → ℂ) : ℝ :=
  euclid (fun i => S.mulVec x i - F i) / euclid F

/-- `∑_n p_n |∑_k u_k (O_k - mean O_k) + x (E - mean E)|²`: the (squared) distance between the exact
evolution, with prefactor `x`, and the variational evolution with velocities `u`; the samples hold
weight, local energy and gradients. -/
noncomputable def tdvpDistance (l : List (ℝ × (Fin 1 → ℂ) × (Fin m → ℂ))) (x : ℂ) (u : Fin m → ℝ) : ℝ :=
  (l.map fun s => s.1 * Complex.normSq
    (∑ k, (u k : ℂ) * (s.2.2 k - wMean (l.map fun s => (s.1, s.2.2)) k)
      + x * (s.2.1 0 - wMean (l.map fun s => (s.1, s.2.1)) 0))).sum

end JVMC.Spec

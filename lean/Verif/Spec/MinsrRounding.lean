import Verif.Spec.CovarRounding
import Verif.Spec.MinSR

/-! # Specification for C139: errors of the MinSR update -/

namespace JVMC.Spec

variable {m : ℕ}

/-- `√p |dO_i|` and `√p |dE|`: the sizes of the centred data of sample `a`. -/
noncomputable def gradSize (l : List (ℝ × (Fin 1 → ℂ) × (Fin m → ℂ))) (a : Fin l.length) (i : Fin m) : ℝ :=
  Real.sqrt l[a].1 * ‖dGrad l l[a] i‖

noncomputable def elocSize (l : List (ℝ × (Fin 1 → ℂ) × (Fin m → ℂ))) (a : Fin l.length) : ℝ :=
  Real.sqrt l[a].1 * ‖dEloc l l[a]‖

/-- The same with three relative errors `u`, and with a mean that carries `K` of them. -/
noncomputable def gradUpper (u : ℝ) (K : ℕ) (l : List (ℝ × (Fin 1 → ℂ) × (Fin m → ℂ))) (a : Fin l.length) (i : Fin m) : ℝ :=
  Real.sqrt l[a].1 * ((1 + u) ^ 3 * (‖dGrad l l[a] i‖ + ((1 + u) ^ K - 1) * size (l.map fun s => (s.1, s.2.2)) i))

noncomputable def elocUpper (u : ℝ) (K : ℕ) (l : List (ℝ × (Fin 1 → ℂ) × (Fin m → ℂ))) (a : Fin l.length) : ℝ :=
  Real.sqrt l[a].1 * ((1 + u) ^ 3 * (‖dEloc l l[a]‖ + ((1 + u) ^ K - 1) * size (l.map fun s => (s.1, s.2.1)) 0))

/-- The factor of the rounding errors of a sum of `N` complex products. -/
def dotFactor (u : ℝ) (N : ℕ) : ℝ := 1 + 2 * ((1 + u) ^ (2 * N) - 1)

/-- The error of the entry `a`, `b` of the tangent kernel. -/
noncomputable def kernelError (u : ℝ) (K : ℕ) (l : List (ℝ × (Fin 1 → ℂ) × (Fin m → ℂ))) (a b : Fin l.length) : ℝ :=
  dotFactor u m * ∑ i, gradUpper u K l a i * gradUpper u K l b i - ∑ i, gradSize l a i * gradSize l b i

/-- The error of component `i` of `-X† P E` with a given matrix `P`. -/
noncomputable def updateError (u : ℝ) (K : ℕ) (l : List (ℝ × (Fin 1 → ℂ) × (Fin m → ℂ)))
    (P : Matrix (Fin l.length) (Fin l.length) ℂ) (i : Fin m) : ℝ :=
  dotFactor u l.length ^ 2 * ∑ b, (∑ a, gradUpper u K l a i * ‖P a b‖) * elocUpper u K l b -
    ∑ b, (∑ a, gradSize l a i * ‖P a b‖) * elocSize l b

end JVMC.Spec

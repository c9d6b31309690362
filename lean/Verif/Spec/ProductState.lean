import Verif.Spec.Povm

/-!
# Product states of spins

Textbook definitions, independent of the code.
-/

namespace JVMC.Spec

open Matrix

/-- The state `(1 + v·σ) / 2` of a spin with Bloch vector `v`, in the basis (up, down). -/
noncomputable def oneSpin (v : Fin 3 → ℝ) : Matrix (Fin 2) (Fin 2) ℂ :=
  !![(1 + v 2) / 2, (v 0 - Complex.I * v 1) / 2; (v 0 + Complex.I * v 1) / 2, (1 - v 2) / 2]

/-- Every spin is in the state with Bloch vector `v`, without correlations. -/
noncomputable def productState (V : Type) [Fintype V] (v : Fin 3 → ℝ) : Matrix (V → Fin 2) (V → Fin 2) ℂ :=
  siteMat fun _ => oneSpin v

end JVMC.Spec

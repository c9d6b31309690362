import Verif.Spec.Variational

/-!
# Specification: the transverse field Ising chain
-/

namespace JVMC.Spec

open Matrix

variable {L : ℕ} [NeZero L]

/-- `H = ∑_l (-Z_l Z_{l+1} + g X_l + h Z_l)` on a ring of `L` spins. -/
noncomputable def ising (g h : ℂ) : Matrix (Fin L → Fin 2) (Fin L → Fin 2) ℂ :=
  ∑ l : Fin L, (-(siteOperator l sigmaZ * siteOperator (l + 1) sigmaZ) + g • siteOperator l sigmaX +
    h • siteOperator l sigmaZ)

/-- `X = 1/L ∑_l X_l`. -/
noncomputable def transverse : Matrix (Fin L → Fin 2) (Fin L → Fin 2) ℂ :=
  ∑ l : Fin L, (1 / (L : ℂ)) • siteOperator l sigmaX

/-- A spin as a number, -1 for down and 1 for up. -/
def spinValue (a : Fin 2) : ℝ := if a = 0 then -1 else 1

/-- The energy of a configuration without transverse field. -/
noncomputable def classicalEnergy (h : ℂ) (s : Fin L → Fin 2) : ℂ :=
  ∑ l : Fin L, (-(spinValue (s l) * spinValue (s (l + 1)) : ℝ) + h * spinValue (s l))

/-- The configuration with the spin at `l` flipped. -/
def flipSpin (s : Fin L → Fin 2) (l : Fin L) : Fin L → Fin 2 := Function.update s l (1 - s l)

end JVMC.Spec

import Verif.Spec.Lindblad
import Mathlib.Logic.Equiv.Fin.Basic

/-!
# Specification: the master equations of the example scripts
-/

namespace JVMC.Spec

open Matrix

/-- `dρ/dt = -i [H, ρ] + ∑_l (Z_l ρ Z_l - ρ)` with `H = ∑_l (Z_l Z_{l+1} + 3 X_l)` on a ring of `L` spins. -/
noncomputable def chainMaster (L : ℕ) [NeZero L] (ρ : Matrix (Fin L → Fin 2) (Fin L → Fin 2) ℂ) :
    Matrix (Fin L → Fin 2) (Fin L → Fin 2) ℂ :=
  -Complex.I • ((∑ l : Fin L, (oneSite Axis.z.pauli l * oneSite Axis.z.pauli (l + 1) + (3 : ℂ) • oneSite Axis.x.pauli l)) * ρ -
      ρ * ∑ l : Fin L, (oneSite Axis.z.pauli l * oneSite Axis.z.pauli (l + 1) + (3 : ℂ) • oneSite Axis.x.pauli l)) +
    ∑ l : Fin L, (oneSite Axis.z.pauli l * ρ * oneSite Axis.z.pauli l - ρ)

/-- The number of the spin in column `x` and row `y` of a square lattice. -/
def squareSite {L : ℕ} (x y : Fin L) : Fin (L * L) := finProdFinEquiv (y, x)

/-- The Hamiltonian `∑ (Z_{x,y} Z_{x+1,y} + Z_{x,y} Z_{x,y+1} + 3 X_{x,y})` on a torus of `L` times `L` spins. -/
noncomputable def squareEnergy (L : ℕ) [NeZero L] : Matrix (Fin (L * L) → Fin 2) (Fin (L * L) → Fin 2) ℂ :=
  ∑ x : Fin L, ∑ y : Fin L, (oneSite Axis.z.pauli (squareSite x y) * oneSite Axis.z.pauli (squareSite (x + 1) y) +
    oneSite Axis.z.pauli (squareSite x y) * oneSite Axis.z.pauli (squareSite x (y + 1)) +
    (3 : ℂ) • oneSite Axis.x.pauli (squareSite x y))

/-- `dρ/dt = -i [H, ρ] + 1/2 ∑_{x,y} (Z_{x,y} ρ Z_{x,y} - ρ)`. -/
noncomputable def squareMaster (L : ℕ) [NeZero L] (ρ : Matrix (Fin (L * L) → Fin 2) (Fin (L * L) → Fin 2) ℂ) :
    Matrix (Fin (L * L) → Fin 2) (Fin (L * L) → Fin 2) ℂ :=
  -Complex.I • (squareEnergy L * ρ - ρ * squareEnergy L) +
    ∑ x : Fin L, ∑ y : Fin L, (1 / 2 : ℂ) •
      (oneSite Axis.z.pauli (squareSite x y) * ρ * oneSite Axis.z.pauli (squareSite x y) - ρ)

end JVMC.Spec

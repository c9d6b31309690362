import Verif.Spec.Symmetries
import Verif.Model.SymNet

/-!
# Specification of symmetrised networks
-/

namespace JVMC.Spec

open Matrix

/-- `s'` is the image of the configuration `s` under `h`, which acts on the spins `2 s - 1 = ±1`. -/
def IsImage {n : ℕ} (h : Matrix (Fin n) (Fin n) ℤ) (s s' : Fin n → ℤ) : Prop :=
  ∀ i, 2 * s' i - 1 = ∑ j, h i j * (2 * s j - 1)

end JVMC.Spec

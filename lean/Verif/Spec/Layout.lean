import Mathlib.Data.Real.Basic
import Verif.Spec.Samples

/-!
# Specification for C103: the same samples in different places
-/

namespace JVMC.Spec

/-- The same samples (with multiplicities), distributed in another way over ranks and devices, or in
another order. -/
def SameSamples {A : Type*} (w w' : List (List (List A))) : Prop := (allSamples w).Perm (allSamples w')

/-- The same samples up to samples without weight (the exact sampler pads its arrays with them). -/
def SameWeighted {A : Type*} (w w' : List (List (List (ℝ × A)))) : Prop :=
  ((allSamples w).filter fun s => s.1 ≠ 0).Perm ((allSamples w').filter fun s => s.1 ≠ 0)

end JVMC.Spec

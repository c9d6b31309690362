import Mathlib.Data.Real.Basic
import Verif.Model.Rnn

/-!
# Specification of direct sampling
-/

namespace JVMC.Spec

open Classical in
/-- The probability of an outcome: the sum of the probabilities listed for it. -/
noncomputable def prob {A : Type} (d : WDist A) (a : A) : ℝ := (d.map fun e => if e.1 = a then e.2 else 0).sum

end JVMC.Spec

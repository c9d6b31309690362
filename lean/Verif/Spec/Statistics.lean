import Verif.Spec.Rnn

/-!
# Specification vocabulary: random results
-/

namespace JVMC.Spec

/-- The mean of a function of a random outcome. -/
noncomputable def average {A : Type} (d : WDist A) (F : A → ℝ) : ℝ := (d.map fun e => e.2 * F e.1).sum

open Classical in
/-- The probability of an event. -/
noncomputable def chance {A : Type} (d : WDist A) (E : A → Prop) : ℝ := average d fun a => if E a then 1 else 0

/-- The listed numbers are probabilities. -/
structure IsLaw {A : Type} (d : WDist A) : Prop where
  nonneg : ∀ e ∈ d, 0 ≤ e.2
  total : average d (fun _ => 1) = 1

end JVMC.Spec

import Mathlib.MeasureTheory.Integral.Bochner.Set
import Mathlib.MeasureTheory.Constructions.Pi
import Mathlib.MeasureTheory.Measure.Lebesgue.Basic

/-!
# Specification vocabulary: independent random numbers
-/

namespace JVMC.Spec

open MeasureTheory

/-- What one update of `C` chains draws: for every chain a move and a number that decides about its acceptance. -/
abbrev Draw (Ω : Type) (C : ℕ) : Type := (Fin C → Ω) × (Fin C → ℝ)

/-- The mean over all draws: independently for every chain, the move is uniform in `W`, the number uniform in `[0, 1)`. -/
noncomputable def drawMean {Ω : Type} (W : Finset Ω) (C : ℕ) (G : Draw Ω C → ℝ) : ℝ :=
  (∑ ω ∈ Fintype.piFinset (fun _ : Fin C => W), ∫ u in {u : Fin C → ℝ | ∀ i, 0 ≤ u i ∧ u i < 1}, G (ω, u)) / (W.card : ℝ) ^ C

/-- The mean over independent outcomes, of which each has its own mean. -/
def listMean {A : Type} : List ((A → ℝ) → ℝ) → (List A → ℝ) → ℝ
  | [], F => F []
  | m :: ms, F => m fun a => listMean ms fun l => F (a :: l)

end JVMC.Spec

import Mathlib.MeasureTheory.Measure.Lebesgue.Basic
import Mathlib.MeasureTheory.Constructions.Pi
import Mathlib.Algebra.BigOperators.Group.Finset.Basic

/-! # Specification vocabulary: transition probabilities of a randomised update

A randomised update of `C` independent chains takes per chain a draw `ω` that is uniform on a
finite set `W`, and a number `u` that is uniform on `[0, 1)`. -/

namespace JVMC.Spec

open MeasureTheory

/-- The probability that the update `step ω u` takes the vector of chain states `s` to `s'`,
if all chains draw independently: the Lebesgue measure of the acceptable `u`, averaged over the
draws `ω`. -/
noncomputable def transProb {Ω S : Type*} {C : ℕ} (W : Finset Ω) (step : Ω → ℝ → S → S)
    (s s' : Fin C → S) : ℝ :=
  (∑ ω ∈ Fintype.piFinset (fun _ : Fin C => W),
    (volume {u : Fin C → ℝ | ∀ i, 0 ≤ u i ∧ u i < 1 ∧ step (ω i) (u i) (s i) = s' i}).toReal)
    / (W.card : ℝ) ^ C

/-- The distribution after one update, if the chains are distributed according to `μ` before. -/
noncomputable def evolve {Ω S : Type*} {C : ℕ} (W : Finset Ω) (step : Ω → ℝ → S → S)
    (X : Finset S) (μ : (Fin C → S) → ℝ) (s' : Fin C → S) : ℝ :=
  ∑ s ∈ Fintype.piFinset (fun _ : Fin C => X), μ s * transProb W step s s'

/-- `C` independent chains distributed with weights `∝ w` on the finite set `X`. -/
noncomputable def productDist {S : Type*} {C : ℕ} (X : Finset S) (w : S → ℝ) (s : Fin C → S) : ℝ :=
  ∏ i, w (s i) / ∑ x ∈ X, w x

end JVMC.Spec

import Mathlib.Analysis.Complex.Basic
import Mathlib.Data.Complex.BigOperators
import Mathlib.LinearAlgebra.Matrix.ConjTranspose
import Mathlib.Data.Matrix.Mul
import Verif.Spec.Operators

/-!
# Expectation values and exactly weighted samples

Textbook quantum mechanics on a finite set `C` of basis configurations.
-/

namespace JVMC.Spec

open Matrix

variable {C : Type} [Fintype C]

/-- `⟨ψ|ψ⟩`. -/
noncomputable def norm2 (ψ : C → ℂ) : ℝ := ∑ s, Complex.normSq (ψ s)

/-- `⟨ψ|O|ψ⟩ / ⟨ψ|ψ⟩`. -/
noncomputable def expect (O : Matrix C C ℂ) (ψ : C → ℂ) : ℂ :=
  (∑ s, (starRingEnd ℂ) (ψ s) * (O *ᵥ ψ) s) / (norm2 ψ : ℂ)

/-- `‖O ψ‖² / ‖ψ‖² - |⟨O⟩|²`; for Hermitian `O` this is `⟨O²⟩ - ⟨O⟩²`. -/
noncomputable def spread (O : Matrix C C ℂ) (ψ : C → ℂ) : ℝ :=
  norm2 (O *ᵥ ψ) / norm2 ψ - Complex.normSq (expect O ψ)

/-- The average of a function over the Born distribution of `ψ`. -/
noncomputable def bornMean (ψ : C → ℂ) (f : C → ℂ) : ℂ :=
  ∑ s, ((Complex.normSq (ψ s) / norm2 ψ : ℝ) : ℂ) * f s

/-- The total weight a list of weighted configurations gives to `s`. -/
def weightOf [DecidableEq C] (l : List (ℝ × C)) (s : C) : ℝ :=
  ((l.filter fun x => decide (x.2 = s)).map Prod.fst).sum

/-- The weights represent the Born distribution of `ψ` without statistical error. -/
structure BornWeights [DecidableEq C] (ψ : C → ℂ) (l : List (ℝ × C)) : Prop where
  nonneg : ∀ x ∈ l, 0 ≤ x.1
  born : ∀ s, weightOf l s = Complex.normSq (ψ s) / norm2 ψ

/-- The lists of (configuration, matrix element) pairs are the rows of `O`. -/
def Represents [DecidableEq C] (kernel : C → List (C × ℂ)) (O : Matrix C C ℂ) : Prop :=
  ∀ s s', elementOf (kernel s) s' = O s s'

end JVMC.Spec

import Verif.Spec.Variational

/-!
# Specification for C104: samples with statistical errors
-/

namespace JVMC.Spec

/-- The weights sum to one, and give every configuration its probability `|ψ|²/⟨ψ|ψ⟩` up to the relative
error `ε`. -/
structure NearBorn {C : Type} [Fintype C] [DecidableEq C] (ε : ℝ) (ψ : C → ℂ) (l : List (ℝ × C)) : Prop where
  nonneg : ∀ x ∈ l, 0 ≤ x.1
  total : (l.map Prod.fst).sum = 1
  near : ∀ s, |weightOf l s - Complex.normSq (ψ s) / norm2 ψ| ≤ ε * (Complex.normSq (ψ s) / norm2 ψ)

end JVMC.Spec

import Mathlib.Algebra.BigOperators.Group.List.Basic
import Mathlib.Algebra.Order.Ring.Int

/-! # Specification vocabulary: integer configurations -/

namespace JVMC.Spec

/-- All entries are local states `0, …, lDim - 1`. -/
def InSpace (lDim : ℤ) (s : List ℤ) : Prop := ∀ x ∈ s, 0 ≤ x ∧ x < lDim

/-- A spin configuration with equally many zeros and ones. -/
def Balanced (s : List ℤ) : Prop :=
  (∀ x ∈ s, x = 0 ∨ x = 1) ∧ s.count 0 = s.count 1

end JVMC.Spec

import Verif.Model.CustomOp

/-!
# Specification: operators defined by a user
-/

namespace JVMC.Spec

/-- What the documentation of `Operator` asks of the function `f` returned by `compile()`: for a configuration of the given
shape it returns the list of the `m` connected configurations, as an array, and their matrix elements. -/
def ReturnsList (f : OpFun) (shape : List ℕ) (m : ℕ) (conn : List ℤ → List (List ℤ × ℂ)) : Prop :=
  ∀ s : List ℤ, s.length = shape.prod →
    (conn s).length = m ∧ (∀ e ∈ conn s, e.1.length = shape.prod) ∧
    f ⟨shape, s⟩ = .ok (⟨m :: shape, ((conn s).map Prod.fst).flatten⟩, (conn s).map Prod.snd)

/-- The configuration with the spin at `i` flipped. -/
def flipAt (i : ℕ) (s : List ℤ) : List ℤ := s.set i (1 - s.getD i 0)

/-- A configuration of spins 0 and 1 on a chain of length `L`. -/
def SpinChain (L : ℕ) (s : IntArr) : Prop := s.shape = [L] ∧ s.data.length = L ∧ ∀ x ∈ s.data, x = 0 ∨ x = 1

end JVMC.Spec

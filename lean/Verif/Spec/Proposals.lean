import Mathlib.Data.Finset.Card
import Mathlib.Data.Rat.Defs
import Mathlib.Algebra.Order.Field.Rat
import Mathlib.Data.Set.Basic

/-!
# What a proposed spin configuration looks like
-/

namespace JVMC.Spec

/-- The spin configuration `t` arises from `s` by flipping exactly the spins at the sites in `D`. -/
def Flipped (D : Set ℕ) (s t : List ℤ) : Prop :=
  t.length = s.length ∧
    ∀ k < s.length, (k ∈ D → t.getD k 0 = 1 - s.getD k 0) ∧ (k ∉ D → t.getD k 0 = s.getD k 0)

open Classical in
/-- The probability that the random update `propose`, with equally likely draws `W`, makes `event` true. -/
noncomputable def drawProb {Ω : Type} (W : Finset Ω) (propose : Ω → List ℤ) (event : List ℤ → Prop) : ℚ :=
  ((W.filter fun d => event (propose d)).card : ℚ) / (W.card : ℚ)

end JVMC.Spec

import Mathlib.Data.List.Basic

/-! # Specification vocabulary: independence of random keys -/

namespace JVMC.Spec

/-- Two keys, given as paths in the splitting tree, are independent if neither was derived from the
other (in particular they differ). -/
def Independent {A : Type*} (a b : List A) : Prop := ¬ a <+: b ∧ ¬ b <+: a

/-- A collection of keys (with repetitions) in which any two entries are independent. -/
def AllIndependent {A : Type*} (l : List (List A)) : Prop := l.Pairwise Independent

end JVMC.Spec

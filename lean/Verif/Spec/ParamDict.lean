import Verif.Model.ParamDict

/-!
# Specification: looking up entries of nested dictionaries

Independent of the order of the items and of how trees are flattened.
-/

namespace JVMC.Spec

variable {A : Type}

/-- `t[k₁][k₂]...`, `none` if there is no array there. -/
def lookup : {b : Bool} → PyTree A b → List String → Option A
  | _, .leaf a, [] => some a
  | _, .leaf _, _ :: _ => none
  | _, .dict d, p => lookup d p
  | _, .nil, _ => none
  | _, .cons _ _ _, [] => none
  | _, .cons k v r, k' :: p => if k = k' then lookup v p else lookup r (k' :: p)

/-- The keys of a dictionary. -/
def dictKeys : {b : Bool} → PyTree A b → List String
  | _, .cons k _ r => k :: dictKeys r
  | _, _ => []

/-- The keys of a Python dictionary are different, here of all dictionaries of a tree. -/
def IsDict : {b : Bool} → PyTree A b → Prop
  | _, .leaf _ => True
  | _, .dict d => IsDict d
  | _, .nil => True
  | _, .cons k v r => k ∉ dictKeys r ∧ IsDict v ∧ IsDict r

/-- `l` holds the arrays of `t` in the order of the paths to them, as words in a dictionary are ordered. -/
def InOrder {b : Bool} (t : PyTree A b) (l : List A) : Prop :=
  ∃ paths : List (List String), paths.Pairwise (· < ·) ∧ (∀ p, p ∈ paths ↔ (lookup t p).isSome) ∧
    List.Forall₂ (fun p a => lookup t p = some a) paths l

end JVMC.Spec

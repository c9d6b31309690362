import Verif.Spec.Symmetries
import Verif.Model.SymNames

/-!
# Specification: which symmetry a name stands for
-/

namespace JVMC.Spec

open Matrix

/-- The symmetries of a chain with a given name. -/
def named1D (L : ℕ) (name : String) : Set (Matrix (Fin L) (Fin L) ℤ) :=
  {M | name = "translation" ∧ IsShift1D M ∨ name = "reflection" ∧ IsReflection1D M ∨
    name = "spinflip" ∧ IsSpinflip M}

/-- The symmetries of a square lattice with a given name. -/
def named2D (L : ℕ) (name : String) : Set (Matrix (Fin (L * L)) (Fin (L * L)) ℤ) :=
  {M | name = "translation" ∧ (IsShiftRows M ∨ IsShiftCols M) ∨
    name = "reflection" ∧ (IsFlipRows M ∨ IsFlipCols M) ∨
    name = "rotation" ∧ IsRotation M ∨ name = "spinflip" ∧ IsSpinflip M}

/-- The factor that is given for a symmetry, one by default. -/
noncomputable def factorFor (kw : List (String × ℂ)) (name : String) : ℂ :=
  match kw.lookup (name ++ "_factor") with
  | some f => f
  | none => 1

/-- The number that a value in a description stands for. -/
noncomputable def descrNumber : DescrVal → ℂ
  | .flag true => 1
  | .flag false => 0
  | .number (.real x) => x
  | .number (.cpx z) => z

/-- The factor that a description gives for a symmetry, one by default. -/
noncomputable def descrFactor (entries : List (String × DescrVal)) (name : String) : ℂ :=
  match entries.lookup (name ++ "_factor") with
  | some v => descrNumber v
  | none => 1

end JVMC.Spec

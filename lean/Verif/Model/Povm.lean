import Mathlib.Data.Complex.Basic
import Mathlib.Data.Complex.BigOperators
import Mathlib.Analysis.Complex.Trigonometric
import Mathlib.Analysis.Real.Sqrt
import Mathlib.LinearAlgebra.Matrix.Notation
import Mathlib.LinearAlgebra.Matrix.ConjTranspose
import Mathlib.LinearAlgebra.Matrix.NonsingularInverse
import Mathlib.LinearAlgebra.Matrix.Kronecker
import Verif.Model.Py

/-!
# Model of the matrices of `jVMC/operator/povm.py`

Arrays with fixed axes are Mathlib matrices. `jnp.einsum` is written out as the sum over all
repeated indices. A two-body index of `jnp.kron` is the pair of the one-body indices.
-/

namespace JVMC

open Matrix

/-- povm.py:80-86 `get_paulis`. -/
def getPaulis : Fin 3 → Matrix (Fin 2) (Fin 2) ℂ :=
  ![!![0, 1; 1, 0], !![0, -Complex.I; Complex.I, 0], !![1, 0; 0, -1]]

/-- povm.py:102-106: the four unit vectors of the SIC-POVM. -/
noncomputable def sicVectors : Matrix (Fin 4) (Fin 3) ℝ :=
  !![0, 0, 1;
     2 * Real.sqrt 2 / 3, 0, -1 / 3;
     -Real.sqrt 2 / 3, Real.sqrt (2 / 3), -1 / 3;
     -Real.sqrt 2 / 3, -Real.sqrt (2 / 3), -1 / 3]

/-- povm.py:116-118 `rotator_theta`. -/
noncomputable def rotatorTheta (θ : ℝ) : Matrix (Fin 3) (Fin 3) ℝ :=
  !![Real.cos θ, 0, Real.sin θ; 0, 1, 0; -Real.sin θ, 0, Real.cos θ]

/-- povm.py:119-121 `rotator_phi`. -/
noncomputable def rotatorPhi (φ : ℝ) : Matrix (Fin 3) (Fin 3) ℝ :=
  !![Real.cos φ, -Real.sin φ, 0; Real.sin φ, Real.cos φ, 0; 0, 0, 1]

/-- povm.py:122-124: the rotated vectors. -/
noncomputable def povmVectors (θ φ : ℝ) : Matrix (Fin 4) (Fin 3) ℝ :=
  sicVectors * ((rotatorTheta θ)ᵀ * (rotatorPhi φ)ᵀ)

/-- povm.py:89-126 `get_M`. -/
noncomputable def getM (θ φ : ℝ) (name : String) :
    Except PyErr (Fin 4 → Matrix (Fin 2) (Fin 2) ℂ) :=
  if name = "SIC" then
    .ok fun a => (1 / 4 : ℂ) • (1 + ∑ k, ((povmVectors θ φ a k : ℝ) : ℂ) • getPaulis k)
  else .error .valueError

variable {ι n : Type} [Fintype ι] [Fintype n]

/-- povm.py:266, `T = einsum('aij, bji -> ab', M, M)`. -/
def povmOverlap (M : ι → Matrix n n ℂ) : Matrix ι ι ℂ :=
  fun a b => ∑ i, ∑ j, M a i j * M b j i

/-- povm.py:267, `T_inv = jnp.linalg.inv(T)`. Mathlib's inverse of a singular matrix is zero, where
JAX returns infinities; `c36_…` shows that the matrix is never singular. -/
noncomputable def povmTInv [DecidableEq ι] (M : ι → Matrix n n ℂ) : Matrix ι ι ℂ :=
  (povmOverlap M)⁻¹

/-- povm.py:153-155, `matrix_to_povm` in mode 'unitary'. -/
noncomputable def matrixToPovmUni (A : Matrix n n ℂ) (M : ι → Matrix n n ℂ) (Tinv : Matrix ι ι ℂ) :
    Matrix ι ι ℝ :=
  fun a b => (-Complex.I * (∑ i, ∑ j, ∑ c, ∑ k, A i j * Tinv b c * M c j k * M a k i)
    + Complex.I * (∑ i, ∑ j, ∑ k, ∑ c, A i j * M a j k * Tinv b c * M c k i)).re

/-- povm.py:156-160, `matrix_to_povm` in mode 'dissipative'. -/
noncomputable def matrixToPovmDis (A : Matrix n n ℂ) (M : ι → Matrix n n ℂ) (Tinv : Matrix ι ι ℂ) :
    Matrix ι ι ℝ :=
  fun a b => ((∑ i, ∑ j, ∑ c, ∑ k, ∑ l, A i j * Tinv b c * M c j k * Aᴴ k l * M a l i)
    - 0.5 * (∑ i, ∑ j, ∑ k, ∑ c, ∑ l, Aᴴ i j * A j k * Tinv b c * M c k l * M a l i)
    - 0.5 * (∑ i, ∑ j, ∑ k, ∑ l, ∑ c, Aᴴ i j * A j k * M a k l * Tinv b c * M c l i)).re

/-- povm.py:161-162, `matrix_to_povm` in mode 'observable'. -/
noncomputable def matrixToPovmObs (A : Matrix n n ℂ) (M : ι → Matrix n n ℂ) (Tinv : Matrix ι ι ℂ) :
    ι → ℝ :=
  fun a => (∑ b, ∑ i, ∑ j, Tinv a b * M b i j * A j i).re

/-- povm.py:163-165, `matrix_to_povm` in mode 'imaginary'. -/
noncomputable def matrixToPovmImag (A : Matrix n n ℂ) (M : ι → Matrix n n ℂ)
    (Tinv : Matrix ι ι ℂ) : Matrix ι ι ℝ :=
  fun a b => (-(∑ i, ∑ j, ∑ c, ∑ k, A i j * Tinv b c * M c j k * M a k i)
    - (∑ i, ∑ j, ∑ k, ∑ c, A i j * M a j k * Tinv b c * M c k i)).re

/-- The result of `matrix_to_povm`: a matrix, or a vector in mode 'observable'.
(povm.py:129-168) -/
inductive PovmArray (ι : Type) where
  | mat (Ω : Matrix ι ι ℝ)
  | vec (O : ι → ℝ)

/-- povm.py:129-168 `matrix_to_povm`. -/
noncomputable def matrixToPovm (A : Matrix n n ℂ) (M : ι → Matrix n n ℂ) (Tinv : Matrix ι ι ℂ)
    (mode : String) : Except PyErr (PovmArray ι) :=
  if mode ∈ ["unitary", "uni"] then .ok (.mat (matrixToPovmUni A M Tinv))
  else if mode ∈ ["dissipative", "dis"] then .ok (.mat (matrixToPovmDis A M Tinv))
  else if mode ∈ ["observable", "obs"] then .ok (.vec (matrixToPovmObs A M Tinv))
  else if mode ∈ ["imaginary", "imag"] then .ok (.mat (matrixToPovmImag A M Tinv))
  else .error .valueError

/-- povm.py:183, the dictionary `dissipators_DM` in `get_dissipators`. -/
noncomputable def dissipatorsDM : List (String × Matrix (Fin 2) (Fin 2) ℂ) :=
  [("decayup", (1 / 2 : ℂ) • (getPaulis 0 + Complex.I • getPaulis 1)),
   ("decaydown", (1 / 2 : ℂ) • (getPaulis 0 - Complex.I • getPaulis 1)),
   ("dephasing", getPaulis 2)]

/-- povm.py:171-188 `get_dissipators`. -/
noncomputable def getDissipators (M : Fin 4 → Matrix (Fin 2) (Fin 2) ℂ)
    (Tinv : Matrix (Fin 4) (Fin 4) ℂ) : List (String × Matrix (Fin 4) (Fin 4) ℝ) :=
  dissipatorsDM.map fun kv => (kv.1, matrixToPovmDis kv.2 M Tinv)

/-- povm.py:203, the one-body entries of `unitaries_DM` in `get_unitaries`. -/
def unitariesDM1 : List (String × Matrix (Fin 2) (Fin 2) ℂ) :=
  [("X", getPaulis 0), ("Y", getPaulis 1), ("Z", getPaulis 2)]

/-- povm.py:203, the two-body entries of `unitaries_DM` in `get_unitaries`. -/
def unitariesDM2 : List (String × Matrix (Fin 2 × Fin 2) (Fin 2 × Fin 2) ℂ) :=
  [("XX", kroneckerMap (· * ·) (getPaulis 0) (getPaulis 0)),
   ("YY", kroneckerMap (· * ·) (getPaulis 1) (getPaulis 1)),
   ("ZZ", kroneckerMap (· * ·) (getPaulis 2) (getPaulis 2))]

/-- povm.py:206 `M_2Body`. -/
def povmM2Body {m : Type} (M : ι → Matrix m m ℂ) : ι × ι → Matrix (m × m) (m × m) ℂ :=
  fun ij => kroneckerMap (· * ·) (M ij.1) (M ij.2)

/-- povm.py:207 `T_inv_2Body`. -/
def povmTInv2Body (Tinv : Matrix ι ι ℂ) : Matrix (ι × ι) (ι × ι) ℂ :=
  kroneckerMap (· * ·) Tinv Tinv

/-- povm.py:191-214 `get_unitaries`, the one-body operators. -/
noncomputable def getUnitaries1 (M : Fin 4 → Matrix (Fin 2) (Fin 2) ℂ)
    (Tinv : Matrix (Fin 4) (Fin 4) ℂ) : List (String × Matrix (Fin 4) (Fin 4) ℝ) :=
  unitariesDM1.map fun kv => (kv.1, matrixToPovmUni kv.2 M Tinv)

/-- povm.py:191-214 `get_unitaries`, the two-body operators. -/
noncomputable def getUnitaries2 (M : Fin 4 → Matrix (Fin 2) (Fin 2) ℂ)
    (Tinv : Matrix (Fin 4) (Fin 4) ℂ) :
    List (String × Matrix (Fin 4 × Fin 4) (Fin 4 × Fin 4) ℝ) :=
  unitariesDM2.map fun kv => (kv.1, matrixToPovmUni kv.2 (povmM2Body M) (povmTInv2Body Tinv))

/-- povm.py:217-232 `get_observables`. -/
noncomputable def getObservables (M : Fin 4 → Matrix (Fin 2) (Fin 2) ℂ)
    (Tinv : Matrix (Fin 4) (Fin 4) ℂ) : List (String × (Fin 4 → ℝ)) :=
  [("X", getPaulis 0), ("Y", getPaulis 1), ("Z", getPaulis 2)].map fun kv =>
    (kv.1, matrixToPovmObs kv.2 M Tinv)

/-- povm.py:61-74: the named one-particle states. -/
noncomputable def povmState (state : String) : Except PyErr (Fin 2 → ℂ) :=
  if state = "z_up" then .ok ![1, 0]
  else if state = "z_down" then .ok ![0, 1]
  else if state = "x_up" then .ok ![1 / (Real.sqrt 2 : ℝ), 1 / (Real.sqrt 2 : ℝ)]
  else if state = "x_down" then .ok ![1 / (Real.sqrt 2 : ℝ), -1 / (Real.sqrt 2 : ℝ)]
  else if state = "y_up" then .ok ![1 / (Real.sqrt 2 : ℝ), Complex.I / (Real.sqrt 2 : ℝ)]
  else if state = "y_down" then .ok ![1 / (Real.sqrt 2 : ℝ), -Complex.I / (Real.sqrt 2 : ℝ)]
  else .error .valueError

/-- povm.py:52-77 `get_1_particle_distributions`: `real(s^† M_a s)` for every outcome. -/
noncomputable def get1ParticleDistributions (state : String)
    (M : Fin 4 → Matrix (Fin 2) (Fin 2) ℂ) : Except PyErr (Fin 4 → ℝ) := do
  let s ← povmState state
  return fun a => (∑ i, (starRingEnd ℂ) (s i) * ∑ j, M a i j * s j).re

end JVMC

import Verif.Model.Povm
import Verif.Model.PovmOperator

/-!
# Model of the operators of a `POVM` object (`jVMC/operator/povm.py:245-272`)

The matrices of `get_unitaries` and `get_dissipators` as they are used by `POVMOperator.compile`: a
`4^k × 4^k` array, whose row and column index is read as `k` outcomes.
-/

namespace JVMC

/-- A `4 × 4` array. (povm.py:413-416) -/
def oneBody (Ω : Matrix (Fin 4) (Fin 4) ℝ) : ℕ × LocMat ℝ :=
  (1, fun s t => Ω (s.getD 0 0) (t.getD 0 0))

/-- A `16 × 16` array; the index is `4 a + b` for the outcomes `a` and `b`. (povm.py:206, 413-416) -/
def twoBody (Ω : Matrix (Fin 4 × Fin 4) (Fin 4 × Fin 4) ℝ) : ℕ × LocMat ℝ :=
  (2, fun s t => Ω (s.getD 0 0, s.getD 1 0) (t.getD 0 0, t.getD 1 0))

/-- A `4^k × 4^k` array. (povm.py:413-416) -/
def manyBody (k : ℕ) (Ω : Matrix (Fin k → Fin 4) (Fin k → Fin 4) ℝ) : ℕ × LocMat ℝ :=
  (k, fun s t => Ω (fun i => s.getD i 0) (fun i => t.getD i 0))

/-- povm.py:261-272 `set_standard_povm_operators`: the registry for given elements. -/
noncomputable def standardReg (M : Fin 4 → Matrix (Fin 2) (Fin 2) ℂ) : PovmReg (ℕ × LocMat ℝ) :=
  PovmReg.standard
    ((getUnitaries1 M (povmTInv M)).map (fun e => (e.1, oneBody e.2))
      ++ (getUnitaries2 M (povmTInv M)).map fun e => (e.1, twoBody e.2))
    ((getDissipators M (povmTInv M)).map fun e => (e.1, oneBody e.2))

/-- povm.py:245-272 `POVM.__init__`: the elements and the registry. -/
noncomputable def povmInit (θ φ : ℝ) (name : String) :
    Except PyErr ((Fin 4 → Matrix (Fin 2) (Fin 2) ℂ) × PovmReg (ℕ × LocMat ℝ)) := do
  let M ← getM θ φ name
  return (M, standardReg M)

/-- The matrix that a user registers for an operator on `k` spins: `matrix_to_povm` with the tensor
products of the elements and of the inverse overlap matrix (`kron`, as in povm.py:206-207 for two spins),
in the mode that belongs to the `add_…` method. (povm.py:129-168, 291-304) -/
noncomputable def customMatrix (M : Fin 4 → Matrix (Fin 2) (Fin 2) ℂ) (kind : RegKind) (k : ℕ)
    (A : Matrix (Fin k → Fin 2) (Fin k → Fin 2) ℂ) : ℕ × LocMat ℝ :=
  let Mk : (Fin k → Fin 4) → Matrix (Fin k → Fin 2) (Fin k → Fin 2) ℂ :=
    fun a s t => ∏ i, M (a i) (s i) (t i)
  let Tk : Matrix (Fin k → Fin 4) (Fin k → Fin 4) ℂ := fun a b => ∏ i, povmTInv M (a i) (b i)
  manyBody k (match kind with
    | .unitary => matrixToPovmUni A Mk Tk
    | .dissipator => matrixToPovmDis A Mk Tk
    | .imaginary => matrixToPovmImag A Mk Tk)

/-- The matrices as complex numbers, which is what `get_O_loc` works with.
(povm.py:362-374, base.py:162-164) -/
noncomputable def povmKernel {N : ℕ} (c : ℕ × List (List (Fin N) × LocMat ℝ)) (s : Config N 4) :
    List (Config N 4 × ℂ) :=
  (povmSPrimes c s).map fun e => (e.1, (e.2 : ℂ))

end JVMC

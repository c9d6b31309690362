import Mathlib.Analysis.SpecialFunctions.Complex.Log
import Mathlib.Analysis.SpecialFunctions.Trigonometric.DerivHyp
import Verif.Model.SymNet

/-!
# Model of `jVMC/nets/activation_functions.py` and `jVMC/nets/rbm.py`

Numbers are exact, but the sign of a zero real part, which decides `jnp.signbit`, is kept: a complex number
comes with the sign bit of its real part.
-/

namespace JVMC

/-- A complex number with the sign bit of its real part (true: negative or minus zero).
(activation_functions.py:19-22) -/
structure SignedC where
  z : ℂ
  neg : Bool

/-- The sign bit belongs to the number: only for a real part zero both values occur.
(activation_functions.py:19-22) -/
def SignedC.Valid (x : SignedC) : Prop := (x.z.re < 0 → x.neg = true) ∧ (0 < x.z.re → x.neg = false)

/-- `jnp.log1p`. (activation_functions.py:22) -/
noncomputable def log1pC (z : ℂ) : LogVal := logC (1 + z)

/-- activation_functions.py:19-22 `log_cosh`. -/
noncomputable def logCosh (x : SignedC) : LogVal :=
  let sgn : ℂ := -2 * (if x.neg then 1 else 0) + 1
  let y := x.z * sgn
  (log1pC (Complex.exp (-2.0 * y))).map fun l => y + l - ((Real.log 2.0 : ℝ) : ℂ)

/-- `flax.linen.Dense`; `bias` is `none` without bias. (rbm.py:32-36, 58-62, 82-86) -/
def dense {n m : ℕ} {R : Type} [Semiring R] (kernel : Fin n → Fin m → R) (bias : Option (Fin m → R)) (x : Fin n → R) :
    Fin m → R := fun j => ∑ i, x i * kernel i j + (match bias with
  | none => 0
  | some b => b j)

/-- The sum of logarithms, minus infinity if one of them is. (rbm.py:88) -/
noncomputable def sumLog {m : ℕ} (f : Fin m → LogVal) : LogVal :=
  open Classical in if ∃ j, f j = none then none else some (∑ j, (f j).getD 0)

/-- rbm.py:17-40 `CpxRBM.__call__`; `neg` are the sign bits of the real parts of the outputs of the layer. -/
noncomputable def cpxRbm {n m : ℕ} (kernel : Fin n → Fin m → ℂ) (bias : Option (Fin m → ℂ)) (neg : Fin m → Bool)
    (s : Fin n → ℤ) : LogVal :=
  sumLog fun j => logCosh ⟨dense kernel bias (fun i => ((2 * s i - 1 : ℤ) : ℂ)) j, neg j⟩

/-- rbm.py:43-64 `CpxRBM_Nospinflip.__call__`. -/
noncomputable def cpxRbmNospinflip {n m : ℕ} (kernel : Fin n → Fin m → ℂ) (bias : Option (Fin m → ℂ))
    (neg : Fin m → Bool) (s : Fin n → ℤ) : LogVal :=
  sumLog fun j => logCosh ⟨dense kernel bias (fun i => ((s i : ℤ) : ℂ)) j, neg j⟩

/-- rbm.py:67-88 `RBM.__call__`, for configurations of one axis. -/
noncomputable def realRbm {n m : ℕ} (kernel : Fin n → Fin m → ℝ) (bias : Option (Fin m → ℝ)) (s : Fin n → ℤ) : ℝ :=
  ∑ j, Real.log (Real.cosh (dense kernel bias (fun i => ((2 * s i - 1 : ℤ) : ℝ)) j))

/-- activation_functions.py:6-7 `square`. -/
def actSquare {R : Type} [CommRing R] (x : R) : R := x ^ 2

/-- activation_functions.py:10-12 `poly6`. -/
def actPoly6 {R : Type} [Field R] (x : R) : R :=
  let y := x ^ 2
  ((0.022222222 * y - 0.083333333) * y + 0.5) * y

/-- activation_functions.py:15-17 `poly5`. -/
def actPoly5 {R : Type} [Field R] (x : R) : R :=
  let xsq := x ^ 2
  ((0.133333333 * xsq - 0.333333333) * xsq + 1) * x

end JVMC

import Mathlib.Analysis.SpecialFunctions.Complex.Log
import Verif.Model.Symmetries

/-!
# Model of `jVMC/nets/sym_wrapper.py`

Configurations are functions on the sites, i.e. given flattened; the inner network is any function that
returns finite complex (or real) numbers. Numbers are exact.
-/

namespace JVMC

/-- A logarithm: a number, or minus infinity (`none`). (sym_wrapper.py:7-19) -/
abbrev LogVal := Option ℂ

/-- The amplitude with the given logarithm. (sym_wrapper.py:7-19) -/
noncomputable def LogVal.amp : LogVal → ℂ
  | none => 0
  | some z => Complex.exp z

/-- `jnp.log` of a complex number. (sym_wrapper.py:19) -/
noncomputable def logC (z : ℂ) : LogVal := if z = 0 then none else some (Complex.log z)

/-- `amax` in `jax.scipy.special.logsumexp`: the largest real part of the entries with `b ≠ 0`, zero if there is
none. (sym_wrapper.py:9) -/
noncomputable def lseMax (t : List (ℂ × ℂ)) : ℝ := (((t.filter fun x => x.2 ≠ 0).map fun x => x.1.re).max?).getD 0

/-- sym_wrapper.py:7-9 `avgFun_Coefficients_Exp` for complex entries: `jax.scipy.special.logsumexp(coeffs, b=b)` is
`log(sum(b * exp(coeffs - amax))) + amax`, where entries with `b = 0` are replaced by minus infinity. -/
noncomputable def avgExp (coeffs b : List ℂ) : LogVal :=
  let t := coeffs.zip b
  let m := lseMax t
  (logC ((t.map fun x => if x.2 = 0 then 0 else Complex.exp (x.1 - m) * x.2).sum)).map fun z => z + m

/-- A real number, minus infinity or NaN. (sym_wrapper.py:9) -/
inductive RealLog where
  | nan
  | negInf
  | fin (x : ℝ)

/-- sym_wrapper.py:7-9 for real entries: `jax.scipy.special.logsumexp` takes the logarithm of the absolute value of
the sum and replaces the result by NaN if the sum is negative. -/
noncomputable def avgExpReal (coeffs b : List ℝ) : RealLog :=
  let t := coeffs.zip b
  let m := (((t.filter fun x => x.2 ≠ 0).map fun x => x.1).max?).getD 0
  let S := (t.map fun x => if x.2 = 0 then 0 else Real.exp (x.1 - m) * x.2).sum
  if S < 0 then .nan else if S = 0 then .negInf else .fin (Real.log |S| + m)

/-- sym_wrapper.py:12-13 `avgFun_Coefficients_Log`; raises nothing: the orbit is not empty. -/
noncomputable def avgLog (coeffs _b : List ℂ) : ℂ := coeffs.sum / coeffs.length

/-- sym_wrapper.py:16-19 `avgFun_Coefficients_Sep`. -/
noncomputable def avgSep (coeffs _b : List ℂ) : ℂ :=
  0.5 * ((Real.log ((coeffs.map fun c => Real.exp (2 * c.re)).sum / coeffs.length) : ℝ) : ℂ) +
    Complex.I * ((Complex.arg ((coeffs.map fun c => Complex.exp (Complex.I * c.im)).sum / coeffs.length) : ℝ) : ℂ)

/-- sym_wrapper.py:52-55: `x = 2 * x - 1; x = o · x; x = (x + 1) // 2` for every matrix of the orbit. -/
def symImages {n : ℕ} (orbit : List (Matrix (Fin n) (Fin n) ℤ)) (x : Fin n → ℤ) : List (Fin n → ℤ) :=
  orbit.map fun o i => Int.fdiv (o.mulVec (fun j => 2 * x j - 1) i + 1) 2

/-- sym_wrapper.py:50-61 `SymNet.__call__`. -/
def symNet {n : ℕ} {A B F : Type} (avgFun : List A → List F → B) (net : (Fin n → ℤ) → A)
    (orbit : List (Matrix (Fin n) (Fin n) ℤ)) (factor : List F) (x : Fin n → ℤ) : B :=
  avgFun ((symImages orbit x).map net) factor

end JVMC

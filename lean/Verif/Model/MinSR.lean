import Mathlib.LinearAlgebra.Matrix.ConjTranspose
import Mathlib.LinearAlgebra.Matrix.Notation
import Verif.Model.Tdvp

/-!
# Model of `jVMC/util/minsr.py`
-/

namespace JVMC

variable {n : ℕ}

/-- minsr.py:29-42: the constructor arguments; `eigh` is the eigendecomposition inside `pinv`. -/
structure MinSRCfg where
  pinvTol : ℝ
  makeReal : String
  eigh : ∀ N : ℕ, Matrix (Fin N) (Fin N) ℂ → (Fin N → ℝ) × Matrix (Fin N) (Fin N) ℂ

/-- `jnp.linalg.pinv(T, rtol=tol, hermitian=True)`: eigenvalues of modulus at most `tol` times the
largest are dropped. (minsr.py:67) -/
noncomputable def pinvHermitian (eigh : ∀ N : ℕ, Matrix (Fin N) (Fin N) ℂ →
    (Fin N → ℝ) × Matrix (Fin N) (Fin N) ℂ) (tol : ℝ) {N : ℕ} (T : Matrix (Fin N) (Fin N) ℂ) :
    Matrix (Fin N) (Fin N) ℂ :=
  let eV := eigh N T
  eV.2 * Matrix.diagonal (fun k => ((if |eV.1 k| > tol * ⨆ j, |eV.1 j| then 1 / eV.1 k else 0 : ℝ) : ℂ))
    * eV.2.conjTranspose

/-- The array of a list of rows, `N × N` (positions outside of the list do not occur: `tangent_kernel`
returns `N` rows of length `N`). (minsr.py:66-67) -/
def squareOfRows (N : ℕ) (rows : List (List ℂ)) : Matrix (Fin N) (Fin N) ℂ :=
  Matrix.of fun a b => (rows.getD a []).getD b 0

/-- minsr.py:60-73 `solve`, on rank `r`. Arrays that do not fit raise `TypeError` in `@`. -/
noncomputable def minsrSolve (cfg : MinSRCfg) (r : ℕ) (eloc : SObs (Fin 1))
    (gradients : SObs (Fin (n + 1))) : Except PyErr (Fin (n + 1) → ℂ) := do
  let T ← atRank r gradients.tangentKernel
  let Tinv := pinvHermitian cfg.eigh cfg.pinvTol (squareOfRows T.length T)
  let elocAll ← atRank r (gather (eloc.rows.map fun s => s.2 0))
  let gradientsAll ← atRank r (gather (gradients.rows.map fun s => s.2))
  if elocAll.length = T.length ∧ gradientsAll.length = T.length then
    return fun i => -∑ a : Fin T.length, (∑ b : Fin T.length,
      (starRingEnd ℂ) ((gradientsAll.getD b fun _ => 0) i) * Tinv b a) * elocAll.getD a 0
  else .error .typeError

/-- The attributes `ElocMean0` and `ElocVar0`; `none`: not assigned yet.
(minsr.py:52-58, 150-154) -/
abbrev MinSRAttrs := Option (ℂ × ℝ)

/-- minsr.py:75-158 `__call__`, on rank `r`. Simplifications as in `tdvpCall`. -/
noncomputable def minsrCall {smp : Type} (env : TdvpEnv n smp) (cfg : MinSRCfg) (r : ℕ)
    (netParameters : List ℝ) (t : ℝ) (intStep : Option ℕ) (sm : smp) (at₀ : MinSRAttrs) :
    PsiM ((Fin (n + 1) → ℂ) × MinSRAttrs × smp) := do
  let tmpParameters ← getParameters
  setParameters (.vec netParameters)
  let params ← getParams
  let (joint, sm') ← match params with
    | none => throw .attributeError
    | some p => PsiM.lift (env.measure p sm t)
  let Eloc ← PsiM.lift (SObs.create (World.map (fun s => (s.1, s.2.1)) joint))
  let gradients ← PsiM.lift (SObs.create (World.map (fun s => (s.1, s.2.2)) joint))
  let update ← PsiM.lift (minsrSolve cfg r Eloc gradients)
  match tmpParameters with
  | none => throw .typeError
  | some v => setParameters (.vec v)
  if intStep = some 0 then
    let mean ← PsiM.lift (atRank r Eloc.mean)
    let vars ← PsiM.lift Eloc.var
    let var ← PsiM.lift (atRank r vars)
    return (update, some (mean 0, var 0), sm')
  else return (update, at₀, sm')

end JVMC

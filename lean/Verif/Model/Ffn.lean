import Mathlib.Analysis.SpecialFunctions.Log.Basic
import Mathlib.Algebra.BigOperators.Group.Finset.Basic
import Verif.Model.Py
import Verif.Model.Rbm

/-!
# Model of `jVMC/nets/ffn.py`, and of `RBM` on lattices with two axes

Vectors are lists of real numbers.
-/

namespace JVMC

/-- Parameters of `nn.Dense`. (ffn.py:40-45) -/
structure DenseParams where
  kernel : ℕ → ℕ → ℝ
  bias : ℕ → ℝ

/-- `nn.Dense(features, use_bias)(x)`. (ffn.py:40-45) -/
def denseList (features : ℕ) (useBias : Bool) (p : DenseParams) (x : List ℝ) : List ℝ :=
  (List.range features).map fun j =>
    ∑ i ∈ Finset.range x.length, x.getD i 0 * p.kernel i j + (if useBias then p.bias j else 0)

/-- ffn.py:29-31: the activation functions; `self.actFun[-1]` raises if there are none. -/
def ffnActs (numLayers : ℕ) (actFun : List (ℝ → ℝ)) : Except PyErr (List (ℝ → ℝ)) :=
  match actFun.getLast? with
  | none => .error .indexError
  | some last => .ok (actFun ++ List.replicate (numLayers + 1 - actFun.length) last)

/-- ffn.py:39-42: the hidden layers; the parameters are numbered from `l`. -/
def ffnHidden (bias : Bool) (params : ℕ → DenseParams) : ℕ → List (ℕ × (ℝ → ℝ)) → List ℝ → List ℝ
  | _, [], s => s
  | l, (features, act) :: rest, s => ffnHidden bias params (l + 1) rest ((denseList features bias (params l) s).map act)

/-- ffn.py:13-45 `FFN(layers, bias, actFun)(s)`; the parameters of the last layer have the number of hidden layers
as index. -/
def ffn (layers : List ℕ) (bias : Bool) (actFun : List (ℝ → ℝ)) (params : ℕ → DenseParams) (s : List ℤ) :
    Except PyErr ℝ := do
  let acts ← ffnActs layers.length actFun
  let x := ffnHidden bias params 0 (layers.zip acts.dropLast) (s.map fun a => ((2 * a - 1 : ℤ) : ℝ))
  match acts.getLast? with
  | none => .error .indexError
  | some act => return ((denseList 1 bias (params layers.length) x).map act).sum

/-- rbm.py:67-88 `RBM.__call__` for configurations with two axes, `s[i, j]`: `nn.Dense` acts on the last axis. -/
noncomputable def realRbm2D {a n m : ℕ} (kernel : Fin n → Fin m → ℝ) (bias : Option (Fin m → ℝ))
    (s : Fin a → Fin n → ℤ) : ℝ :=
  ∑ i, ∑ j, Real.log (Real.cosh (dense kernel bias (fun k => ((2 * s i k - 1 : ℤ) : ℝ)) j))

/-- rbm.py:17-40 `CpxRBM.__call__` for configurations with two axes, which are flattened (`s.ravel()`). -/
noncomputable def cpxRbm2D {a n m : ℕ} (kernel : Fin (a * n) → Fin m → ℂ) (bias : Option (Fin m → ℂ))
    (neg : Fin m → Bool) (s : Fin a → Fin n → ℤ) : LogVal :=
  cpxRbm kernel bias neg fun k => s (finProdFinEquiv.symm k).1 (finProdFinEquiv.symm k).2

end JVMC

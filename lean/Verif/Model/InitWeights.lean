import Verif.Model.Rbm
import Verif.Model.Py

/-!
# Model of the initial weights (`jVMC/nets/initializers.py:27-40`)

The random numbers are arguments: `u` and `v` are the numbers in `[0, 1)` which the generator returns for one entry of
an array (for the first and the second key). `jax.nn.initializers` is not part of /repo; its functions `uniform`
and `variance_scaling` are given by their documented formulas.
-/

namespace JVMC

/-- One entry of `jax.nn.initializers.uniform(scale)`: uniform in `[0, scale)`. (initializers.py:29, 35) -/
def uniformEntry (scale u : ℝ) : ℝ := u * scale

/-- One entry of `cplx_init`; the default scale of `uniform` is 1e-2. (initializers.py:27-30) -/
noncomputable def cplxInit (u v : ℝ) : ℂ := (uniformEntry 0.01 u : ℂ) + Complex.I * (uniformEntry 0.01 v : ℂ)

/-- initializers.py:36-38: the loop over `shape[:-2]`, for the reversed shape `(shape[-1], shape[-2], ...)`. -/
def leadingElems (revShape : List ℕ) : ℕ := (revShape.drop 2).foldr (fun k elems => elems * k) 1

/-- One entry of `cplx_variance_scaling`; a shape with less than two axes has no `shape[-2]`.
(initializers.py:33-40) -/
noncomputable def cplxVarianceScaling (shape : List ℕ) (u v : ℝ) : Except PyErr ℂ :=
  match shape.reverse with
  | last :: last2 :: rest =>
    let elems := leadingElems (last :: last2 :: rest)
    let w : ℝ := Real.sqrt (((last + last2) * elems : ℕ) : ℝ)
    .ok ((1 / w : ℝ) * (uniformEntry 1 u : ℂ) * Complex.exp (Complex.I * (3.141593 : ℝ) * (uniformEntry 1 v : ℂ)))
  | _ => .error .indexError

/-- A `CpxRBM` after its initialisation; the biases are zero. (rbm.py:32-38) -/
noncomputable def freshCpxRbm {n m : ℕ} (bias : Bool) (u v : Fin n → Fin m → ℝ) (neg : Fin m → Bool)
    (s : Fin n → ℤ) : LogVal :=
  cpxRbm (fun i j => cplxInit (u i j) (v i j)) (if bias then some fun _ => 0 else none) neg s

/-- A `CpxRBM_Nospinflip` after its initialisation. (rbm.py:58-64) -/
noncomputable def freshCpxRbmNospinflip {n m : ℕ} (bias : Bool) (u v : Fin n → Fin m → ℝ) (neg : Fin m → Bool)
    (s : Fin n → ℤ) : LogVal :=
  cpxRbmNospinflip (fun i j => cplxInit (u i j) (v i j)) (if bias then some fun _ => 0 else none) neg s

/-! ## Recurrent networks -/

/-- The initialisers which the recurrent networks with `cell="RNN"` use:
`jax.nn.initializers.variance_scaling(scale, mode="fan_avg", distribution="uniform")` or `cplx_variance_scaling`.
(rnn1d_general.py:39, 111, 114, rnn2d_general.py:39, 116, 119) -/
inductive KernelInit where
  | varianceScaling (scale : ℝ)
  | cplxVarianceScaling

/-- One entry of a kernel of shape `(fanIn, fanOut)`. `variance_scaling` is uniform in `[-1, 1)`, for complex numbers
in the unit disc, times the root of (three times, for real numbers) the variance.
(rnn1d_general.py:39, 111, 114; initializers.py:33-40) -/
noncomputable def kernelEntry (init : KernelInit) (cpx : Bool) (fanIn fanOut : ℕ) (u v : ℝ) : Except PyErr ℂ :=
  match init with
  | .cplxVarianceScaling => cplxVarianceScaling [fanIn, fanOut] u v
  | .varianceScaling scale =>
    let variance : ℝ := scale / (((fanIn + fanOut : ℕ) : ℝ) / 2)
    if cpx then .ok ((Real.sqrt u : ℝ) * Complex.exp (Complex.I * (2 * Real.pi * v : ℝ)) * (Real.sqrt variance : ℝ))
    else .ok ((2 * u - 1) * Real.sqrt (3 * variance) : ℝ)

/-- The initialisers of the kernels of a recurrent network: input layer of the stack, hidden layers, output layer.
(rnn1d_general.py:45, 119, 132-134, rnn2d_general.py:48, 127, 140-146) -/
structure RnnInits where
  dataIn : KernelInit
  carry : KernelInit
  out : KernelInit

/-- `RNN1DGeneral.setup`; the stack is created without the argument `initFun`, so that its input layer has the default
value. (rnn1d_general.py:109-134, 39) -/
noncomputable def rnn1dInits (initScale : ℝ) (realValuedParams : Bool) : RnnInits :=
  let initFunction := if realValuedParams then KernelInit.varianceScaling initScale else .cplxVarianceScaling
  ⟨.varianceScaling 0.1, initFunction, initFunction⟩

/-- `RNN2DGeneral.setup`. (rnn2d_general.py:113-146) -/
noncomputable def rnn2dInits (initScale : ℝ) (realValuedParams : Bool) : RnnInits :=
  let initFunction := if realValuedParams then KernelInit.varianceScaling initScale else .cplxVarianceScaling
  ⟨initFunction, initFunction, initFunction⟩

end JVMC

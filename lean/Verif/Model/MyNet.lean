import Verif.Model.Rbm
import Verif.Model.ParamTypes

/-!
# Model of the user-defined network in `examples/ex3_custom_net.py`
-/

namespace JVMC

/-- `MyNet.__call__`: `2 * s - 1`, `flax.linen.Dense(features=numHidden, dtype=tCpx)`, `log(cosh(h))`, sum. With
`dtype=tCpx` the layer computes with complex numbers, whatever the parameters are. (ex3_custom_net.py:8-21) -/
noncomputable def myNet {n m : ℕ} (kernel : Fin n → Fin m → ℂ) (bias : Fin m → ℂ) (s : Fin n → ℤ) : LogVal :=
  sumLog fun j => logC (Complex.cosh (dense kernel (some bias) (fun i => ((2 * s i - 1 : ℤ) : ℂ)) j))

/-- `net.init(...)`: `Dense` has a bias, which is zero, and a kernel; flax creates parameters of the type `param_dtype`, single
precision if it is not given. `tree_flatten` sorts by names, so the bias comes first. (ex3_custom_net.py:16-17, vqs.py:190) -/
noncomputable def myNetInit {n m : ℕ} (kernel : Fin n → Fin m → ℝ) : Variables :=
  ⟨[⟨.f32, List.replicate m 0⟩, ⟨.f32, (List.finRange n).flatMap fun i => List.ofFn fun j => ((kernel i j : ℝ) : ℂ)⟩], []⟩

/-- `psi(configs)` on one device with batches of `batchSize` configurations: the network with the arrays of the object.
Simplification: a tree of another form, or arrays of another size, raise `KeyError`. (ex3_custom_net.py:33, vqs.py:223-251) -/
noncomputable def myNetEval {n : ℕ} (m batchSize : ℕ) (configs : List (Fin n → ℤ)) (v : Variables) : Except PyErr (List LogVal) :=
  match v.params with
  | [bias, kernel] =>
    if bias.vals.length = m ∧ kernel.vals.length = n * m then
      evalBatched (fun _ => 0) batchSize
        (myNet (m := m) (fun i j => kernel.vals.getD (i.val * m + j.val) 0) fun j => bias.vals.getD j.val 0) configs
    else .error .keyError
  | _ => .error .keyError

end JVMC

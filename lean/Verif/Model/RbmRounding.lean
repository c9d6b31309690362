import Verif.Model.Rbm
import Verif.Model.Rounding

/-!
# Model of Boltzmann machines with rounding errors

`RBM.__call__` (`jVMC/nets/rbm.py:67-88`) and `log_cosh` (`jVMC/nets/activation_functions.py:19-22`) of real numbers in floating
point arithmetic. Simplification: no overflow and no underflow (see C120 for these).
-/

namespace JVMC

/-- The elementary functions of the machine. (rbm.py:88, activation_functions.py:22) -/
structure ElemFuns where
  cosh : ℝ → ℝ
  exp : ℝ → ℝ
  log : ℝ → ℝ
  log1p : ℝ → ℝ

/-- An output of `flax.linen.Dense`: a dot product, any order of the additions, then the bias. (rbm.py:82-88) -/
def DenseR (r : Rounding) {n m : ℕ} (kernel : Fin n → Fin m → ℝ) (bias : Option (Fin m → ℝ)) (x : Fin n → ℝ) (j : Fin m)
    (y : ℝ) : Prop :=
  ∃ d, DotR r (List.ofFn fun i => (x i, kernel i j)) d ∧ (match bias with
    | none => y = d
    | some b => r.Rd (d + b j) y)

/-- `RBM.__call__`: the values that `jnp.sum(jnp.log(jnp.cosh(layer(2 * s - 1))))` can have; the spins are integers, which are
exact. (rbm.py:80-88) -/
def RealRbmR (r : Rounding) (F : ElemFuns) {n m : ℕ} (kernel : Fin n → Fin m → ℝ) (bias : Option (Fin m → ℝ)) (s : Fin n → ℤ)
    (out : ℝ) : Prop :=
  ∃ h : Fin m → ℝ, (∀ j, DenseR r kernel bias (fun i => ((2 * s i - 1 : ℤ) : ℝ)) j (h j)) ∧
    Sums r (List.ofFn fun j => F.log (F.cosh (h j))) out

/-- `log_cosh` of a real number; the factor ±1 is exact. `neg` is the sign bit. (activation_functions.py:19-22) -/
def LogCoshR (r : Rounding) (F : ElemFuns) (x : ℝ) (neg : Bool) (out : ℝ) : Prop :=
  ∃ a t, r.Rd (-2 * (if neg then -x else x)) a ∧ r.Rd ((if neg then -x else x) + F.log1p (F.exp a)) t ∧
    r.Rd (t - F.log 2) out

end JVMC

import Verif.Model.RbmRounding
import Verif.Model.SymNet

/-!
# Model of symmetrised networks with rounding errors

`jVMC/nets/sym_wrapper.py` for networks that return real numbers, in floating point arithmetic. Simplifications: positive factors
(what a real network returns for others is in C57), no overflow and no underflow (see C120).
-/

namespace JVMC

/-- sym_wrapper.py:7-9 `avgFun_Coefficients_Exp`: the values that `jax.scipy.special.logsumexp(coeffs, b=b)` can have, which is
`log(sum(b * exp(coeffs - amax))) + amax`. -/
def LogSumExpR (r : Rounding) (F : ElemFuns) {K : ℕ} (c b : Fin K → ℝ) (out : ℝ) : Prop :=
  ∃ (amax : ℝ) (δ p : Fin K → ℝ) (S : ℝ), (∃ k, c k = amax) ∧ (∀ k, c k ≤ amax) ∧ (∀ k, r.Rd (c k - amax) (δ k)) ∧
    (∀ k, r.Rd (b k * F.exp (δ k)) (p k)) ∧ Sums r (List.ofFn p) S ∧ r.Rd (F.log S + amax) out

/-- sym_wrapper.py:12-13 `avgFun_Coefficients_Log`: the values that `jnp.mean(coeffs)` can have. -/
def MeanLogR (r : Rounding) {K : ℕ} (c : Fin K → ℝ) (out : ℝ) : Prop :=
  ∃ S, Sums r (List.ofFn c) S ∧ r.Rd (S / K) out

/-- sym_wrapper.py:16-19 `avgFun_Coefficients_Sep` of real coefficients: the values that `0.5 * log(mean(exp(2 * re)))` can have;
the imaginary parts and with them the phase are zero. -/
def MeanSepR (r : Rounding) (F : ElemFuns) {K : ℕ} (c : Fin K → ℝ) (out : ℝ) : Prop :=
  ∃ (a : Fin K → ℝ) (S q : ℝ), (∀ k, r.Rd (2 * c k) (a k)) ∧ Sums r (List.ofFn fun k => F.exp (a k)) S ∧ r.Rd (S / K) q ∧
    r.Rd (0.5 * F.log q) out

/-- sym_wrapper.py:50-61 `SymNet.__call__`: `Net s y` says that the network can return `y` for `s`; the images of the
configuration are integers, which are exact. -/
def SymNetR {n K : ℕ} (Net : (Fin n → ℤ) → ℝ → Prop) (avg : (Fin K → ℝ) → ℝ → Prop) (orbit : Fin K → Matrix (Fin n) (Fin n) ℤ)
    (x : Fin n → ℤ) (out : ℝ) : Prop :=
  ∃ c : Fin K → ℝ, (∀ k, Net (fun i => Int.fdiv ((orbit k).mulVec (fun j => 2 * x j - 1) i + 1) 2) (c k)) ∧ avg c out

end JVMC

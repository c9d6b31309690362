import Verif.Model.Rounding

/-!
# Model of local estimators with rounding errors

`Operator._get_O_loc` (`jVMC/operator/base.py:162-164`) in floating point arithmetic: `jnp.sum(matEl * jnp.exp(logPsiSP - logPsiS))`.
As in Model/Rounding, results are relations: products may be fused with the following addition, and the sum may be taken in
any order. Real numbers are complex numbers with imaginary part zero. Simplification: no overflow and no underflow (see C120
for these), and complex products are computed by the textbook formula.
-/

namespace JVMC

/-- Difference of complex numbers: both parts are rounded. (operator/base.py:164: `z - y`) -/
def CSubR (r : Rounding) (x y z : ℂ) : Prop := r.Rd (x.re - y.re) z.re ∧ r.Rd (x.im - y.im) z.im

/-- Product of complex numbers. (operator/base.py:164: `x * jnp.exp(..)`) -/
def CMulR (r : Rounding) (x y z : ℂ) : Prop :=
  ∃ a b c d, r.Rd (x.re * y.re) a ∧ r.Rd (x.im * y.im) b ∧ r.Rd (a - b) z.re ∧
    r.Rd (x.re * y.im) c ∧ r.Rd (x.im * y.re) d ∧ r.Rd (c + d) z.im

/-- One term of a local estimator: matrix element times exponential function (`e`, that of the machine) of the difference of
the logarithmic amplitudes. (operator/base.py:164) -/
def OLocTermR (r : Rounding) (e : ℂ → ℂ) (logS : ℂ) (p : ℂ × ℂ) (t : ℂ) : Prop :=
  ∃ z, CSubR r p.2 logS z ∧ CMulR r p.1 (e z) t

/-- The values of `_get_O_loc` for one sample: `row` holds the computed matrix elements and logarithmic amplitudes of the
connected configurations. (operator/base.py:162-164) -/
def OLocR (r : Rounding) (e : ℂ → ℂ) (logS : ℂ) (row : List (ℂ × ℂ)) (v : ℂ) : Prop :=
  ∃ ts : List ℂ, List.Forall₂ (OLocTermR r e logS) row ts ∧
    Sums r (ts.map Complex.re) v.re ∧ Sums r (ts.map Complex.im) v.im

/-- What a rank knows about a sample before the local estimator is computed. (operator/base.py:166-212, util.py:83-84) -/
structure OLocInput where
  weight : ℝ
  logS : ℂ
  row : List (ℂ × ℂ)

/-- The mean of the local estimators of all samples, as `measure` and `SampledObs` compute it: `get_O_loc` on every device,
then `global_mean` with the weights of the sampler. (util.py:77-99, mpi_wrapper.py:150-174) -/
def MeasuredR (r : Rounding) (e : ℂ → ℂ) (world : List (List (List OLocInput))) (v : ℂ) : Prop :=
  ∃ data : List (List (List (ℝ × ℂ))),
    List.Forall₂ (List.Forall₂ (List.Forall₂ fun (s : OLocInput) (x : ℝ × ℂ) => x.1 = s.weight ∧ OLocR r e s.logS s.row x.2))
      world data ∧ GlobalMeanC r data v

end JVMC

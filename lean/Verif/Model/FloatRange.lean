import Verif.Model.Nodes
import Verif.Model.ProductState
import Verif.Model.SymNet
import Mathlib.Analysis.Complex.ExponentialBounds

/-!
# Model of the limited range of floating point numbers

Samplers, averages over symmetries and local estimators with numbers that become infinite above a largest number and zero
below a smallest positive one, with the IEEE rules for infinities and NaN. Numbers in between are exact. Simplification: a
number below the smallest positive one is only replaced by zero where it is an exponential or a probability, not where it
is an exponent.
-/

set_option exponentiation.threshold 2000

namespace JVMC

/-- The smallest positive and the largest finite number. (global_defs.py: `tReal` is a double) -/
structure FloatRange where
  tiny : ℝ
  big : ℝ
  tiny_pos : 0 < tiny
  tiny_lt : tiny < 1
  big_gt : 1 < big
  exp_neg_big : Real.exp (-big) < tiny

/-- The range of double precision numbers, which the code uses throughout.
(global_defs.py:3-6: `tReal = np.float64`) -/
noncomputable def FloatRange.double : FloatRange where
  tiny := 1 / 2 ^ 1074
  big := dblMax
  tiny_pos := by positivity
  tiny_lt := by norm_num
  big_gt := by norm_num [dblMax]
  exp_neg_big := by
    rw [Real.exp_neg, one_div]
    apply inv_strictAnti₀ (by positivity)
    have h1 : (2 : ℝ) < Real.exp 1 := by linarith [Real.exp_one_gt_d9]
    have h2 : (2 : ℝ) ^ 1074 < Real.exp 1 ^ 1074 := pow_lt_pow_left₀ h1 (by norm_num) (by norm_num)
    rw [← Real.exp_nat_mul] at h2
    exact h2.trans_le (Real.exp_le_exp.2 (by norm_num [dblMax]))

/-- A number that is too large becomes infinite. (sampler.py:222-223, 469, 511-516) -/
noncomputable def FloatRange.clip (R : FloatRange) : Dbl → Dbl
  | .fin x => open Classical in if R.big < x then .inf else if x < -R.big then .ninf else .fin x
  | y => y

/-- A number that is too large becomes infinite, one that is too small becomes zero.
(sampler.py:222-223, 325, 469, 484) -/
noncomputable def FloatRange.round (R : FloatRange) : Dbl → Dbl
  | .fin x => open Classical in if |x| < R.tiny then .fin 0 else R.clip (.fin x)
  | y => y

/-- `a / b`. (sampler.py:469, 484) -/
noncomputable def Dbl.div : Dbl → Dbl → Dbl
  | .nan, _ => .nan
  | _, .nan => .nan
  | .fin a, .fin b => Dbl.quotient a b
  | .fin _, _ => .fin 0
  | .inf, .fin b => open Classical in if b < 0 then .ninf else .inf
  | .ninf, .fin b => open Classical in if b < 0 then .inf else .ninf
  | _, _ => .nan

/-- `u < a`. (sampler.py:329) -/
noncomputable def Dbl.above (u : ℝ) : Dbl → Bool
  | .fin x => decide (u < x)
  | .inf => true
  | .ninf => false
  | .nan => false

/-- `jnp.sum`, `lax.psum` and the reduction of MPI, one number after the other. (mpi_wrapper.py:44, 141) -/
noncomputable def FloatRange.sum (R : FloatRange) (l : List Dbl) : Dbl :=
  l.foldl (fun a b => R.clip (a.add b)) (.fin 0)

/-- mpi_wrapper.py:114-147, `global_sum`, as `globalSum`. -/
noncomputable def globalSumF (R : FloatRange) (world : List (List (List Dbl))) : Except PyErr (List Dbl) := do
  let locals ← world.mapM fun data => pyHead (data.map fun _ => R.sum (data.map R.sum))
  return locals.map fun _ => R.sum locals

/-! ## Exact sampler -/

/-- sampler.py:466-478, `_compute_probabilities` for one entry; `e.2` is the real part of `log ψ`. -/
noncomputable def exactUnnormalisedF (R : FloatRange) (logProbFactor : ℝ) (lastNorm : Dbl) (e : Bool × Dbl) : Dbl :=
  if e.1 then R.round (R.clip ((R.clip (e.2.sub lastNorm)).div (.fin logProbFactor))).exp else .fin 0

/-- sampler.py:511-518, as `exactSample`. -/
noncomputable def exactSampleF (R : FloatRange) (logProbFactor : ℝ) (lastNorm : Dbl)
    (world : List (List (List (Bool × Dbl)))) : Except PyErr (Dbl × List (List (List Dbl))) := do
  let p := world.map fun rk => rk.map fun dev => dev.map (exactUnnormalisedF R logProbFactor lastNorm)
  let nrms ← globalSumF R p
  match nrms with
  | [] => .error .indexError
  | nrm :: _ =>
    return (R.clip (lastNorm.add (R.clip ((Dbl.fin logProbFactor).mul nrm.log))),
      p.map fun rk => rk.map fun dev => dev.map fun x => R.round (x.div nrm))

/-- A history of `sample` calls, as `exactRun`. (sampler.py:411, 486-518) -/
noncomputable def exactRunF (R : FloatRange) (logProbFactor : ℝ) (lastNorm : Dbl) :
    List (List (List (List (Bool × Dbl)))) → Except PyErr (Dbl × List (List (List (List Dbl))))
  | [] => .ok (lastNorm, [])
  | w :: ws => do
    let (ln, p) ← exactSampleF R logProbFactor lastNorm w
    let (ln', ps) ← exactRunF R logProbFactor ln ws
    return (ln', p :: ps)

/-! ## Markov chains -/

/-- sampler.py:222-223, as `mcmcWeights`; the entries are the real parts of `log ψ`. -/
noncomputable def mcmcWeightsF (R : FloatRange) (logProbFactor mu : ℝ) (world : List (List (List Dbl))) :
    Except PyErr (List (List (List Dbl))) := do
  let p := world.map fun rk => rk.map fun dev => dev.map fun re =>
    R.round (R.clip ((Dbl.fin (1 / logProbFactor - mu)).mul re)).exp
  let nrms ← globalSumF R p
  return (p.zip nrms).map fun pn => pn.1.map fun dev => dev.map fun x => R.round (x.div pn.2)

/-- sampler.py:324-329 for one chain: `u < exp(new - old)`. -/
noncomputable def acceptsF (R : FloatRange) (old new : Dbl) (u : ℝ) : Bool :=
  (R.round (R.clip (new.sub old)).exp).above u

/-- sampler.py:315-341 `perform_mc_update` for one chain: configuration and stored `mu * Re(log ψ)` after proposing
`d.1` and drawing `d.2`. -/
noncomputable def chainStepF {S : Type} (R : FloatRange) (mu : ℝ) (re : S → Dbl) (c : S × Dbl) (d : S × ℝ) : S × Dbl :=
  let new := R.clip ((Dbl.fin mu).mul (re d.1))
  if acceptsF R c.2 new d.2 then (d.1, new) else c

/-- sampler.py:313-346 `_sweep` for one chain, as `chainRunN`. -/
noncomputable def chainRunF {S : Type} (R : FloatRange) (mu : ℝ) (re : S → Dbl) :
    S × Dbl → List ((S → S) × ℝ) → S × Dbl
  | c, [] => c
  | c, (prop, u) :: ds => chainRunF R mu re (chainStepF R mu re c (prop c.1, u)) ds

/-! ## Averages over symmetries -/

/-- sym_wrapper.py:16-19 `avgFun_Coefficients_Sep`, the real part; the arguments are the real parts of `log ψ`. -/
noncomputable def avgSepF (R : FloatRange) (coeffs : List Dbl) : Dbl :=
  (Dbl.fin 0.5).mul (R.round ((R.sum (coeffs.map fun c => R.round (R.clip ((Dbl.fin 2).mul c)).exp)).div
    (.fin coeffs.length))).log

/-! ## Local estimators -/

/-- base.py:163 `exp(logPsiSP - logPsiS)`: infinite or NaN if the modulus is too large. Simplification: not replaced by
zero if it is too small. -/
noncomputable def ratioF (R : FloatRange) (logPsiS logPsiSP : ℂ) : Flt ℂ :=
  open Classical in
  if R.big < Real.exp (logPsiSP.re - logPsiS.re) then none else some (Complex.exp (logPsiSP - logPsiS))

/-- base.py:162-164 `_get_O_loc` on one sample: if a ratio is infinite or NaN then so is the sum, even if the matrix
element is zero. -/
noncomputable def oLocRowF {S : Type} (R : FloatRange) (row : List (S × ℂ)) (logPsiS : ℂ) (logPsi : S → ℂ) : Flt ℂ :=
  (row.mapM fun e => (ratioF R logPsiS (logPsi e.1)).map fun q => e.2 * q).map List.sum

/-- base.py:188-192, 212, as `oLocOn`. -/
noncomputable def oLocOnF {S : Type} (R : FloatRange) (kernel : S → List (S × ℂ)) (logPsi : S → ℂ)
    (samples : List S) : List (Flt ℂ) :=
  List.zipWith (fun row s => oLocRowF R row (logPsi s) logPsi) (getSPrimes kernel samples) samples

end JVMC

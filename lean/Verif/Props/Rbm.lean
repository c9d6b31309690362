import Mathlib.Algebra.BigOperators.Ring.Finset
import Verif.Lemmas.SymNet
import Verif.Model.Rbm

/-!
# Properties of `log_cosh` and of restricted Boltzmann machines (C61)
-/

namespace JVMC

open Spec

/-! ## Helper lemmas -/

theorem logCosh_amp_eq (x : SignedC) (y : ℂ) (hy : y = x.z * (-2 * (if x.neg then 1 else 0) + 1)) :
    (logCosh x).amp = Complex.cosh y := by
  have h2 : ((Real.log 2.0 : ℝ) : ℂ) = Complex.log 2 := by
    rw [show (2.0 : ℝ) = 2 by norm_num, Complex.ofReal_log (by norm_num : (0 : ℝ) ≤ 2)]
    norm_num
  have h1 : logCosh x = (logC (1 + Complex.exp (-2 * y))).map fun l => l + (y - Complex.log 2) := by
    unfold logCosh log1pC
    dsimp only
    rw [← hy, show (2.0 : ℂ) = 2 by norm_num, h2]
    congr 1
    funext l
    ring
  rw [h1, amp_map_add, logC_amp, Complex.cosh, Complex.exp_sub, Complex.exp_log two_ne_zero]
  have h3 : (1 + Complex.exp (-2 * y)) * Complex.exp y = Complex.exp y + Complex.exp (-y) := by
    rw [add_mul, one_mul, ← Complex.exp_add]
    congr 2
    ring
  rw [← mul_div_assoc, h3]

theorem sumLog_amp {m : ℕ} (f : Fin m → LogVal) : (sumLog f).amp = ∏ j, (f j).amp := by
  unfold sumLog
  by_cases h : ∃ j, f j = none
  · rw [if_pos h]
    obtain ⟨j, hj⟩ := h
    exact (Finset.prod_eq_zero (Finset.mem_univ j) (by rw [hj]; rfl)).symm
  · rw [if_neg h]
    push Not at h
    change Complex.exp _ = _
    rw [Complex.exp_sum]
    apply Finset.prod_congr rfl
    intro j _
    cases hj : f j with
    | none => exact absurd hj (h j)
    | some z => rfl

theorem dense_neg {n m : ℕ} {R : Type} [CommRing R] (kernel : Fin n → Fin m → R) {x y : Fin n → R}
    (h : ∀ i, y i = -x i) (j : Fin m) : dense kernel none y j = -dense kernel none x j := by
  unfold dense
  simp [h, Finset.sum_neg_distrib]

/-! ## Properties -/

/-- C61: `exp(log_cosh(z)) = cosh(z)` for every complex number, also where the hyperbolic cosine vanishes and
whatever the sign of a zero real part. -/
theorem c61_exp (x : SignedC) : (logCosh x).amp = Complex.cosh x.z := by
  rw [logCosh_amp_eq x _ rfl]
  cases x.neg with
  | false => simp
  | true =>
    rw [if_pos rfl, show x.z * (-2 * 1 + 1) = -x.z by ring, Complex.cosh_neg]

/-- C61: the value is finite unless the hyperbolic cosine vanishes. -/
theorem c61_finite (x : SignedC) : logCosh x = none ↔ Complex.cosh x.z = 0 := by
  rw [← c61_exp]
  cases logCosh x with
  | none => simp [LogVal.amp]
  | some z => simp [LogVal.amp, Complex.exp_ne_zero]

/-- C61: `log_cosh` is even; negation also flips the sign bit. -/
theorem c61_even (z : ℂ) (neg : Bool) : logCosh ⟨-z, !neg⟩ = logCosh ⟨z, neg⟩ := by
  unfold logCosh
  cases neg <;> norm_num

/-- C61: `log_cosh` is even wherever the real part is not zero. -/
theorem c61_even_nonzero (x y : SignedC) (hx : x.Valid) (hy : y.Valid) (hxy : y.z = -x.z) (h0 : x.z.re ≠ 0) :
    logCosh y = logCosh x := by
  obtain ⟨z, b⟩ := x
  obtain ⟨w, c⟩ := y
  dsimp only at hxy h0
  subst hxy
  have : c = !b := by
    rcases lt_or_gt_of_ne h0 with h | h
    · have h1 := hx.1 h
      have h2 := hy.2 (by simpa using h)
      dsimp only at h1 h2
      rw [h1, h2]; rfl
    · have h1 := hx.2 h
      have h2 := hy.1 (by simpa using h)
      dsimp only at h1 h2
      rw [h1, h2]; rfl
  rw [this, c61_even]

/-- Where two opposite numbers both have the real part `+0`, the logarithms can differ by `2πi` (the amplitudes are
the same by `c61_exp`). -/
theorem c61_zero_real_part : logCosh ⟨Complex.I * Real.pi, false⟩ ≠ logCosh ⟨-(Complex.I * Real.pi), false⟩ ∧
    (⟨Complex.I * Real.pi, false⟩ : SignedC).Valid ∧ (⟨-(Complex.I * Real.pi), false⟩ : SignedC).Valid := by
  refine ⟨?_, ⟨by simp, by simp⟩, ⟨by simp, by simp⟩⟩
  have h1 : Complex.exp (-2.0 * (Complex.I * Real.pi * (-2 * 0 + 1))) = 1 := by
    rw [show (-2.0 : ℂ) * (Complex.I * Real.pi * (-2 * 0 + 1)) = -(2 * Real.pi * Complex.I) by norm_num; ring,
      Complex.exp_neg, Complex.exp_two_pi_mul_I, inv_one]
  have h2 : Complex.exp (-2.0 * (-(Complex.I * Real.pi) * (-2 * 0 + 1))) = 1 := by
    rw [show (-2.0 : ℂ) * (-(Complex.I * Real.pi) * (-2 * 0 + 1)) = 2 * Real.pi * Complex.I by norm_num; ring,
      Complex.exp_two_pi_mul_I]
  unfold logCosh log1pC logC
  simp only [Bool.false_eq_true, if_false]
  rw [h1, h2, if_neg (by norm_num)]
  simp only [Option.map_some, ne_eq, Option.some.injEq]
  intro h
  have h3 := congrArg Complex.im h
  simp at h3
  have := Real.pi_pos
  linarith

/-- C61: the amplitude of the complex RBM is the product of the hyperbolic cosines of the hidden units. -/
theorem c61_amplitude (n m : ℕ) (kernel : Fin n → Fin m → ℂ) (bias : Fin m → ℂ) (neg : Fin m → Bool) (s : Fin n → ℤ) :
    (cpxRbm kernel (some bias) neg s).amp = ∏ j, Complex.cosh (bias j + ∑ i, kernel i j * (2 * s i - 1)) ∧
    (cpxRbm kernel none neg s).amp = ∏ j, Complex.cosh (∑ i, kernel i j * (2 * s i - 1)) ∧
    (cpxRbmNospinflip kernel (some bias) neg s).amp = ∏ j, Complex.cosh (bias j + ∑ i, kernel i j * s i) := by
  refine ⟨?_, ?_, ?_⟩
  all_goals
    simp only [cpxRbm, cpxRbmNospinflip, sumLog_amp, c61_exp, dense]
    apply Finset.prod_congr rfl
    intro j _
    push_cast
    simp only [add_comm, mul_comm, zero_add]

/-- C61: without bias, a configuration and its global spin flip have the same amplitude, whatever the signs of
vanishing real parts. -/
theorem c61_flip (n m : ℕ) (kernel : Fin n → Fin m → ℂ) (neg neg' : Fin m → Bool) (s s' : Fin n → ℤ)
    (h : ∀ i, s' i = 1 - s i) : (cpxRbm kernel none neg' s').amp = (cpxRbm kernel none neg s).amp := by
  simp only [cpxRbm, sumLog_amp, c61_exp]
  apply Finset.prod_congr rfl
  intro j _
  rw [dense_neg kernel (x := fun i => ((2 * s i - 1 : ℤ) : ℂ)) (fun i => ?_) j, Complex.cosh_neg]
  rw [h i]
  push_cast
  ring

/-- C61: the same for the RBM with real parameters (which returns a real logarithm). -/
theorem c61_real (n m : ℕ) (kernel : Fin n → Fin m → ℝ) (bias : Fin m → ℝ) (s s' : Fin n → ℤ)
    (h : ∀ i, s' i = 1 - s i) :
    Real.exp (realRbm kernel (some bias) s) = ∏ j, Real.cosh (bias j + ∑ i, kernel i j * (2 * s i - 1)) ∧
    realRbm kernel none s' = realRbm kernel none s := by
  constructor
  · unfold realRbm
    rw [Real.exp_sum]
    apply Finset.prod_congr rfl
    intro j _
    rw [Real.exp_log (Real.cosh_pos _), dense]
    push_cast
    simp only [add_comm, mul_comm]
  · unfold realRbm
    apply Finset.sum_congr rfl
    intro j _
    rw [dense_neg kernel (x := fun i => ((2 * s i - 1 : ℤ) : ℝ)) (fun i => ?_) j, Real.cosh_neg]
    rw [h i]
    push_cast
    ring

/-- The polynomial activation functions are even and odd, like the functions they approximate. -/
theorem c61_polynomials {R : Type} [Field R] (x : R) :
    actSquare (-x) = actSquare x ∧ actPoly6 (-x) = actPoly6 x ∧ actPoly5 (-x) = -actPoly5 x := by
  unfold actSquare actPoly6 actPoly5
  refine ⟨by ring, by ring, by ring⟩

/-! ## Examples -/

/-- `cosh(iπ/2) = 0`: the value is minus infinity. -/
example : logCosh ⟨Real.pi / 2 * Complex.I, true⟩ = none := by
  rw [c61_finite, Complex.cosh_mul_I]
  exact_mod_cast Real.cos_pi_div_two

/-- A configuration and its spin flip. -/
example (kernel : Fin 3 → Fin 2 → ℂ) (neg : Fin 2 → Bool) :
    (cpxRbm kernel none neg ![1, 0, 0]).amp = (cpxRbm kernel none neg ![0, 1, 1]).amp :=
  c61_flip 3 2 kernel neg neg ![0, 1, 1] ![1, 0, 0] (by decide)

end JVMC

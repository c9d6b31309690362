import Mathlib.Analysis.Calculus.Deriv.MeanValue
import Mathlib.Analysis.SpecialFunctions.Trigonometric.DerivHyp
import Mathlib.Analysis.SpecialFunctions.Log.Deriv
import Mathlib.Tactic.Linarith
import Mathlib.Tactic.Positivity
import Verif.Model.Rbm

/-! # Property C61: the polynomial activation functions approximate `log cosh` and `tanh` -/

namespace JVMC

theorem nonneg_of_deriv {f f' : ℝ → ℝ} (h : ∀ x, HasDerivAt f (f' x) x) (h0 : f 0 = 0)
    (hp : ∀ x, 0 ≤ x → x ≤ 1 → 0 ≤ f' x) {x : ℝ} (hx0 : 0 ≤ x) (hx1 : x ≤ 1) : 0 ≤ f x := by
  have hm : MonotoneOn f (Set.Icc 0 1) := by
    apply monotoneOn_of_deriv_nonneg (convex_Icc 0 1)
    · exact fun x _ => (h x).continuousAt.continuousWithinAt
    · exact fun x _ => (h x).differentiableAt.differentiableWithinAt
    · intro x hx
      rw [interior_Icc] at hx
      rw [(h x).deriv]
      exact hp x hx.1.le hx.2.le
  rw [← h0]
  exact hm ⟨le_refl _, zero_le_one⟩ ⟨hx0, hx1⟩ hx0

theorem hasDerivAt_tanh' (x : ℝ) : HasDerivAt Real.tanh (1 - Real.tanh x ^ 2) x := by
  have hc := (Real.cosh_pos x).ne'
  have h := (Real.hasDerivAt_sinh x).div (Real.hasDerivAt_cosh x) hc
  have e : Real.tanh = Real.sinh / Real.cosh := by
    funext y
    rw [Real.tanh_eq_sinh_div_cosh]
    rfl
  have h' : HasDerivAt Real.tanh ((Real.cosh x * Real.cosh x - Real.sinh x * Real.sinh x) / Real.cosh x ^ 2) x := by
    rw [e]
    exact h
  convert h' using 1
  rw [Real.tanh_eq_sinh_div_cosh]
  field_simp

theorem hasDerivAt_logcosh (x : ℝ) : HasDerivAt (fun y => Real.log (Real.cosh y)) (Real.tanh x) x := by
  have h := (Real.hasDerivAt_cosh x).log (Real.cosh_pos x).ne'
  rw [Real.tanh_eq_sinh_div_cosh]
  exact h

theorem hasDerivAt_mono (c : ℝ) (n : ℕ) (x : ℝ) : HasDerivAt (fun y => c * y ^ (n + 1)) (c * ((n + 1 : ℕ) * x ^ n)) x := by
  simpa using (hasDerivAt_pow (n + 1) x).const_mul c

section
variable {x : ℝ} (h0 : 0 ≤ x) (h1 : x ≤ 1)
include h0 h1

theorem tanh_bounds1 : 0 ≤ Real.tanh x ∧ Real.tanh x ≤ x := by
  constructor
  · rw [Real.tanh_eq_sinh_div_cosh]
    exact div_nonneg (Real.sinh_nonneg_iff.mpr h0) (Real.cosh_pos x).le
  · have := nonneg_of_deriv (f := fun y => y - Real.tanh y) (f' := fun y => 1 - (1 - Real.tanh y ^ 2))
      (fun y => (hasDerivAt_id y).sub (hasDerivAt_tanh' y)) (by simp) (fun y _ _ => by nlinarith [sq_nonneg (Real.tanh y)])
      h0 h1
    linarith

theorem tanh_bounds2 : x - x ^ 3 / 3 ≤ Real.tanh x := by
  have := nonneg_of_deriv (f := fun y => Real.tanh y - (1 * y ^ (0 + 1) - 1 / 3 * y ^ (2 + 1)))
    (f' := fun y => (1 - Real.tanh y ^ 2) - (1 * ((0 + 1 : ℕ) * y ^ 0) - 1 / 3 * ((2 + 1 : ℕ) * y ^ 2)))
    (fun y => (hasDerivAt_tanh' y).sub ((hasDerivAt_mono 1 0 y).sub (hasDerivAt_mono (1 / 3) 2 y))) (by simp)
    (fun y hy0 hy1 => by
      obtain ⟨a, b⟩ := tanh_bounds1 hy0 hy1
      push_cast
      nlinarith) h0 h1
  linarith

theorem tanh_bounds3 : Real.tanh x ≤ x - x ^ 3 / 3 + 2 / 15 * x ^ 5 := by
  have := nonneg_of_deriv (f := fun y => (1 * y ^ (0 + 1) - 1 / 3 * y ^ (2 + 1)) + 2 / 15 * y ^ (4 + 1) - Real.tanh y)
    (f' := fun y => (1 * ((0 + 1 : ℕ) * y ^ 0) - 1 / 3 * ((2 + 1 : ℕ) * y ^ 2)) + 2 / 15 * ((4 + 1 : ℕ) * y ^ 4) -
      (1 - Real.tanh y ^ 2))
    (fun y => (((hasDerivAt_mono 1 0 y).sub (hasDerivAt_mono (1 / 3) 2 y)).add (hasDerivAt_mono (2 / 15) 4 y)).sub
      (hasDerivAt_tanh' y)) (by simp)
    (fun y hy0 hy1 => by
      have a := tanh_bounds2 hy0 hy1
      have b : 0 ≤ y - y ^ 3 / 3 := by
        have : y ^ 3 ≤ y := by simpa using pow_le_pow_of_le_one hy0 hy1 (show 1 ≤ 3 by norm_num)
        linarith
      have c : (y - y ^ 3 / 3) ^ 2 ≤ Real.tanh y ^ 2 := pow_le_pow_left₀ b a 2
      have e : (y - y ^ 3 / 3) ^ 2 = y ^ 2 - 2 / 3 * y ^ 4 + (y ^ 3 / 3) ^ 2 := by ring
      push_cast
      nlinarith [sq_nonneg (y ^ 3 / 3)]) h0 h1
  linarith

theorem tanh_bounds4 : x - x ^ 3 / 3 + 2 / 15 * x ^ 5 - 17 / 315 * x ^ 7 ≤ Real.tanh x := by
  have := nonneg_of_deriv (f := fun y => Real.tanh y - ((1 * y ^ (0 + 1) - 1 / 3 * y ^ (2 + 1)) + 2 / 15 * y ^ (4 + 1)
      - 17 / 315 * y ^ (6 + 1)))
    (f' := fun y => (1 - Real.tanh y ^ 2) - ((1 * ((0 + 1 : ℕ) * y ^ 0) - 1 / 3 * ((2 + 1 : ℕ) * y ^ 2)) +
      2 / 15 * ((4 + 1 : ℕ) * y ^ 4) - 17 / 315 * ((6 + 1 : ℕ) * y ^ 6)))
    (fun y => (hasDerivAt_tanh' y).sub ((((hasDerivAt_mono 1 0 y).sub (hasDerivAt_mono (1 / 3) 2 y)).add
      (hasDerivAt_mono (2 / 15) 4 y)).sub (hasDerivAt_mono (17 / 315) 6 y))) (by simp)
    (fun y hy0 hy1 => by
      have a := tanh_bounds3 hy0 hy1
      have b := (tanh_bounds1 hy0 hy1).1
      have c : Real.tanh y ^ 2 ≤ (y - y ^ 3 / 3 + 2 / 15 * y ^ 5) ^ 2 := pow_le_pow_left₀ b a 2
      have d : y ^ 10 ≤ y ^ 8 := pow_le_pow_of_le_one hy0 hy1 (by norm_num)
      have d' : 0 ≤ y ^ 8 := by positivity
      have e : (y - y ^ 3 / 3 + 2 / 15 * y ^ 5) ^ 2 = y ^ 2 - 2 / 3 * y ^ 4 + 17 / 45 * y ^ 6 - 4 / 45 * y ^ 8 +
          4 / 225 * y ^ 10 := by ring
      push_cast
      rw [e] at c
      linarith) h0 h1
  linarith

theorem logcosh_bounds : 0 ≤ x ^ 2 / 2 - x ^ 4 / 12 + x ^ 6 / 45 - Real.log (Real.cosh x) ∧
    x ^ 2 / 2 - x ^ 4 / 12 + x ^ 6 / 45 - Real.log (Real.cosh x) ≤ 17 / 2520 * x ^ 8 := by
  constructor
  · have := nonneg_of_deriv (f := fun y => (1 / 2 * y ^ (1 + 1) - 1 / 12 * y ^ (3 + 1)) + 1 / 45 * y ^ (5 + 1) -
        Real.log (Real.cosh y))
      (f' := fun y => (1 / 2 * ((1 + 1 : ℕ) * y ^ 1) - 1 / 12 * ((3 + 1 : ℕ) * y ^ 3)) + 1 / 45 * ((5 + 1 : ℕ) * y ^ 5) -
        Real.tanh y)
      (fun y => (((hasDerivAt_mono (1 / 2) 1 y).sub (hasDerivAt_mono (1 / 12) 3 y)).add (hasDerivAt_mono (1 / 45) 5 y)).sub
        (hasDerivAt_logcosh y)) (by simp)
      (fun y hy0 hy1 => by
        have a := tanh_bounds3 hy0 hy1
        push_cast
        linarith) h0 h1
    linarith
  · have := nonneg_of_deriv (f := fun y => Real.log (Real.cosh y) - ((1 / 2 * y ^ (1 + 1) - 1 / 12 * y ^ (3 + 1)) +
        1 / 45 * y ^ (5 + 1) - 17 / 2520 * y ^ (7 + 1)))
      (f' := fun y => Real.tanh y - ((1 / 2 * ((1 + 1 : ℕ) * y ^ 1) - 1 / 12 * ((3 + 1 : ℕ) * y ^ 3)) +
        1 / 45 * ((5 + 1 : ℕ) * y ^ 5) - 17 / 2520 * ((7 + 1 : ℕ) * y ^ 7)))
      (fun y => (hasDerivAt_logcosh y).sub ((((hasDerivAt_mono (1 / 2) 1 y).sub (hasDerivAt_mono (1 / 12) 3 y)).add
        (hasDerivAt_mono (1 / 45) 5 y)).sub (hasDerivAt_mono (17 / 2520) 7 y))) (by simp)
      (fun y hy0 hy1 => by
        have a := tanh_bounds4 hy0 hy1
        push_cast
        linarith) h0 h1
    linarith

end

/-- C61: `poly6` is the Taylor polynomial of `log cosh` of order six, up to the rounding of its coefficients to
nine digits: the error is of order eight. -/
theorem c61_poly6_taylor (x : ℝ) (hx : |x| ≤ 1) :
    |actPoly6 x - Real.log (Real.cosh x)| ≤ 17 / 2520 * x ^ 8 + 4e-10 * (x ^ 4 + x ^ 6) := by
  obtain ⟨a, b⟩ := logcosh_bounds (abs_nonneg x) hx
  have e : ∀ n, |x| ^ (2 * n) = x ^ (2 * n) := fun n => by rw [pow_mul, sq_abs, ← pow_mul]
  rw [Real.cosh_abs, show |x| ^ 2 = x ^ 2 from e 1, show |x| ^ 4 = x ^ 4 from e 2, show |x| ^ 6 = x ^ 6 from e 3] at a b
  rw [show |x| ^ 8 = x ^ 8 from e 4] at b
  have h4 : 0 ≤ x ^ 4 := by positivity
  have h6 : 0 ≤ x ^ 6 := by positivity
  have h8 : 0 ≤ x ^ 8 := by positivity
  have hp : actPoly6 x = 0.022222222 * x ^ 6 - 0.083333333 * x ^ 4 + 0.5 * x ^ 2 := by
    unfold actPoly6
    ring
  rw [hp, abs_le]
  constructor <;> norm_num <;> linarith

/-- C61: `poly5` is the Taylor polynomial of `tanh` of order five, up to the rounding of its coefficients to nine
digits: the error is of order seven. -/
theorem c61_poly5_taylor (x : ℝ) (hx : |x| ≤ 1) :
    |actPoly5 x - Real.tanh x| ≤ 17 / 315 * |x| ^ 7 + 4e-10 * (|x| ^ 3 + |x| ^ 5) := by
  have key : ∀ y : ℝ, 0 ≤ y → y ≤ 1 → |actPoly5 y - Real.tanh y| ≤ 17 / 315 * y ^ 7 + 4e-10 * (y ^ 3 + y ^ 5) := by
    intro y h0 h1
    have a := tanh_bounds3 h0 h1
    have b := tanh_bounds4 h0 h1
    have h3 : 0 ≤ y ^ 3 := by positivity
    have h5 : 0 ≤ y ^ 5 := by positivity
    have h7 : 0 ≤ y ^ 7 := by positivity
    have hp : actPoly5 y = 0.133333333 * y ^ 5 - 0.333333333 * y ^ 3 + y := by
      unfold actPoly5
      ring
    rw [hp, abs_le]
    constructor <;> norm_num <;> linarith
  rcases abs_choice x with h | h
  · rw [h]
    rw [h] at hx
    exact key x (by rw [← h]; exact abs_nonneg x) hx
  · have := key (-x) (by rw [← h]; exact abs_nonneg x) (by rw [← h]; exact hx)
    rw [h]
    rw [Real.tanh_neg, show actPoly5 (-x) = -actPoly5 x by unfold actPoly5; ring, ← neg_sub_neg, ← abs_neg] at this
    convert this using 2
    ring

example : |actPoly6 (1 / 2 : ℝ) - Real.log (Real.cosh (1 / 2))| ≤ 3 / 100000 :=
  (c61_poly6_taylor (1 / 2) (by rw [abs_of_pos] <;> norm_num)).trans (by norm_num)

end JVMC

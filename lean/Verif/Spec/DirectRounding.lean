import Mathlib.Analysis.SpecialFunctions.Log.Basic
import Verif.Model.DirectRounding
import Verif.Spec.Rnn
import Verif.Spec.Statistics

/-! # Specification vocabulary: accuracy of direct sampling -/

namespace JVMC.Spec

/-- An exponential function with relative error `v`. -/
def RExpWithin (v : ℝ) (e : ℝ → ℝ) : Prop := ∀ x, |e x - Real.exp x| ≤ v * Real.exp x

/-- A logarithm of positive numbers with relative error `w`. -/
def LogWithin (w : ℝ) (l : ℝ → ℝ) : Prop := ∀ x, 0 < x → |l x - Real.log x| ≤ w * |Real.log x|

/-- Draws of one of `n` local states: the probabilities differ from those given by the logits by `c` in total. -/
def DrawWithin (c : ℝ) (draw : ℕ → (ℕ → ℝ) → WDist ℤ) : Prop :=
  ∀ n logits, 0 < n → IsLaw (draw n logits) ∧ (∀ e ∈ draw n logits, 0 ≤ e.1 ∧ e.1 < n) ∧
    ∑ j ∈ Finset.range n, |prob (draw n logits) j - Real.exp (logits j) / ∑ k ∈ Finset.range n, Real.exp (logits k)| ≤ c

/-- Lists of coefficients that differ by at most `a`, where the exact ones are at most `B`. -/
def CoeffsWithin {O O' : Type} (a B : ℝ) (m : ℕ) (dense : O → ℕ → ℝ) (dense' : O' → ℕ → ℝ) : List O → List O' → Prop :=
  List.Forall₂ fun o o' => ∀ k < m, |dense' o' k - dense o k| ≤ a ∧ |dense o k| ≤ B

/-- Bound of the error of the logarithm of the sum in `log_softmax` for `n` numbers that differ by at most `D`. -/
noncomputable def lseError (u v w : ℝ) (n : ℕ) (D : ℝ) : ℝ :=
  (u * D + 2 * v + 2 * n * u) + w * (Real.log n + (u * D + 2 * v + 2 * n * u))

/-- Bound of the error of `log_softmax` for `n` numbers of modulus at most `B` with errors of at most `a`. -/
noncomputable def softmaxError (u v w a B : ℝ) (n : ℕ) : ℝ :=
  2 * a + (1 + u) * (u * (2 * (B + a)) + lseError u v w n (2 * (B + a))) + u * (2 * (B + a) + Real.log n)

/-- Bound of the error of the logarithm of a conditional probability. -/
noncomputable def logitError (u v w a B : ℝ) (n : ℕ) : ℝ :=
  (1 + u) ^ 2 * softmaxError u v w a B n + ((1 + u) ^ 2 - 1) * (2 * B + Real.log n)

/-- Bound of the error of one draw: the logits, and the draw itself. -/
noncomputable def drawError (u v w a B : ℝ) (n : ℕ) (c : ℝ) : ℝ := (Real.exp (2 * logitError u v w a B n) - 1) + c

/-- Bound of the error of one term of a logarithmic amplitude. -/
noncomputable def termError (u v w a B κ : ℝ) (n : ℕ) : ℝ :=
  |κ| * ((1 + u) * softmaxError u v w a B n + u * (2 * B + Real.log n))

/-- Bound of the error of a sum of `N` numbers of modulus at most `T`, which have errors of at most `e`. -/
noncomputable def sumError (u e T : ℝ) (N : ℕ) : ℝ := N * ((1 + u) ^ N * e + ((1 + u) ^ N - 1) * T)

/-- The arithmetic of the machine: relative errors `v` of exponentials and `w` of logarithms, errors `c` of draws. -/
structure GoodMachine (M : Machine) (v w c : ℝ) : Prop where
  v_nonneg : 0 ≤ v
  v_le : v ≤ 1 / 2
  w_nonneg : 0 ≤ w
  u_le : M.r.u ≤ 1 / 2
  exp : RExpWithin v M.exp
  log : LogWithin w M.log
  draw : DrawWithin c M.draw

end JVMC.Spec

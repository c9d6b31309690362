import Mathlib.Analysis.SpecialFunctions.ExpDeriv
import Mathlib.Analysis.Calculus.Deriv.Star
import Mathlib.Analysis.Calculus.Deriv.Add
import Mathlib.Analysis.Calculus.Deriv.Mul
import Mathlib.Analysis.Calculus.Deriv.Inv
import Mathlib.Algebra.BigOperators.Field
import Mathlib.LinearAlgebra.Matrix.Hermitian
import Mathlib.Tactic.FieldSimp
import Mathlib.Tactic.LinearCombination
import Verif.Spec.Variational
import Verif.Spec.Samples

/-! # Helper lemmas: expectation values -/

namespace JVMC

open Spec Matrix

variable {C : Type} [Fintype C]

/-! ## Weighted sums -/

theorem sum_weighted [DecidableEq C] (l : List (ℝ × C)) (f : C → ℂ) :
    (l.map fun x => (x.1 : ℂ) * f x.2).sum = ∑ s, (weightOf l s : ℂ) * f s := by
  induction l with
  | nil => simp [weightOf]
  | cons a l ih =>
    rw [List.map_cons, List.sum_cons, ih]
    have h : ∀ s, weightOf (a :: l) s = (if a.2 = s then a.1 else 0) + weightOf l s := by
      intro s
      unfold weightOf
      rw [List.filter_cons]
      by_cases hs : a.2 = s
      · simp [hs]
      · simp [hs]
    simp only [h, Complex.ofReal_add, add_mul, Finset.sum_add_distrib]
    congr 1
    rw [Finset.sum_eq_single a.2]
    · simp
    · intro b _ hb
      rw [if_neg (Ne.symm hb)]; simp
    · simp

theorem sum_weighted_real [DecidableEq C] (l : List (ℝ × C)) (f : C → ℝ) :
    (l.map fun x => x.1 * f x.2).sum = ∑ s, weightOf l s * f s := by
  have h := sum_weighted l (fun s => (f s : ℂ))
  have h1 : ∀ l : List (ℝ × C), (l.map fun x => (x.1 : ℂ) * (f x.2 : ℂ)).sum
      = (((l.map fun x => x.1 * f x.2).sum : ℝ) : ℂ) := by
    intro l
    induction l with
    | nil => simp
    | cons a l ih =>
      rw [List.map_cons, List.sum_cons, List.map_cons, List.sum_cons, ih]
      push_cast; ring
  rw [h1] at h
  exact_mod_cast h

theorem norm2_pos (ψ : C → ℂ) (s : C) (h : ψ s ≠ 0) : 0 < norm2 ψ := by
  unfold norm2
  exact Finset.sum_pos' (fun _ _ => Complex.normSq_nonneg _)
    ⟨s, Finset.mem_univ _, Complex.normSq_pos.2 h⟩

theorem applyTo_elementOf [DecidableEq C] (l : List (C × ℂ)) (f : C → ℂ) :
    applyTo l f = ∑ s', elementOf l s' * f s' := by
  induction l with
  | nil => simp [applyTo, elementOf]
  | cons a l ih =>
    have h1 : applyTo (a :: l) f = a.2 * f a.1 + applyTo l f := by simp [applyTo]
    have h : ∀ s, elementOf (a :: l) s = (if a.1 = s then a.2 else 0) + elementOf l s := by
      intro s
      unfold elementOf
      rw [List.filter_cons]
      by_cases hs : a.1 = s
      · simp [hs]
      · simp [hs]
    rw [h1, ih]
    simp only [h, add_mul, Finset.sum_add_distrib]
    congr 1
    rw [Finset.sum_eq_single a.1]
    · simp
    · intro b _ hb
      rw [if_neg (Ne.symm hb)]; simp
    · simp

/-! ## Local estimators -/

/-- `O_loc(s) = (O ψ)(s) / ψ(s)`. -/
noncomputable def localValue (O : Matrix C C ℂ) (ψ : C → ℂ) (s : C) : ℂ := (O *ᵥ ψ) s / ψ s

theorem born_mul_local (O : Matrix C C ℂ) (ψ : C → ℂ) (s : C) (h : ψ s ≠ 0) (a : ℂ) :
    (Complex.normSq (ψ s) : ℂ) * (a * localValue O ψ s)
      = a * ((starRingEnd ℂ) (ψ s) * (O *ᵥ ψ) s) := by
  unfold localValue
  rw [Complex.normSq_eq_conj_mul_self]
  field_simp

theorem born_mean (O : Matrix C C ℂ) (ψ : C → ℂ) (h : ∀ s, ψ s ≠ 0) :
    ∑ s, ((Complex.normSq (ψ s) / norm2 ψ : ℝ) : ℂ) * localValue O ψ s = expect O ψ := by
  unfold expect
  rw [Finset.sum_div]
  apply Finset.sum_congr rfl
  intro s _
  have := born_mul_local O ψ s (h s) 1
  rw [one_mul, one_mul] at this
  rw [← this]
  push_cast
  ring

theorem born_total (ψ : C → ℂ) (h : 0 < norm2 ψ) :
    ∑ s, Complex.normSq (ψ s) / norm2 ψ = 1 := by
  rw [← Finset.sum_div]
  exact div_self h.ne'

theorem born_second (O : Matrix C C ℂ) (ψ : C → ℂ) (h : ∀ s, ψ s ≠ 0) :
    ∑ s, Complex.normSq (ψ s) / norm2 ψ * Complex.normSq (localValue O ψ s)
      = norm2 (O *ᵥ ψ) / norm2 ψ := by
  unfold localValue
  conv_rhs => rw [norm2, Finset.sum_div]
  apply Finset.sum_congr rfl
  intro s _
  have : Complex.normSq (ψ s) ≠ 0 := (Complex.normSq_pos.2 (h s)).ne'
  rw [Complex.normSq_div]
  field_simp

/-- `∑ p |x - m|² = ∑ p |x|² - |m|²` for weights of sum one. -/
theorem weighted_variance (p : C → ℝ) (x : C → ℂ) (hp : ∑ s, p s = 1) (m : ℂ)
    (hm : ∑ s, (p s : ℂ) * x s = m) :
    ∑ s, p s * Complex.normSq (x s - m) = ∑ s, p s * Complex.normSq (x s) - Complex.normSq m := by
  have h : ∀ s, p s * Complex.normSq (x s - m) = p s * Complex.normSq (x s)
      - 2 * ((p s : ℂ) * x s * (starRingEnd ℂ) m).re + p s * Complex.normSq m := by
    intro s
    rw [Complex.normSq_sub, mul_assoc, Complex.re_ofReal_mul]
    ring
  simp only [h, Finset.sum_add_distrib, Finset.sum_sub_distrib, ← Finset.mul_sum, ← Finset.sum_mul,
    hp]
  rw [← Complex.re_sum, ← Finset.sum_mul, hm, Complex.mul_conj, Complex.ofReal_re]
  ring

/-! ## Derivatives -/

/-- `Cov(g, O_loc)` in the Born distribution. -/
noncomputable def bornCov (O : Matrix C C ℂ) (ψ g : C → ℂ) : ℂ :=
  ∑ s, ((Complex.normSq (ψ s) / norm2 ψ : ℝ) : ℂ)
    * ((starRingEnd ℂ) (g s - ∑ s', ((Complex.normSq (ψ s') / norm2 ψ : ℝ) : ℂ) * g s')
      * (localValue O ψ s - expect O ψ))

theorem expect_real (O : Matrix C C ℂ) (hO : O.IsHermitian) (ψ : C → ℂ) :
    (starRingEnd ℂ) (expect O ψ) = expect O ψ := by
  unfold expect
  rw [map_div₀, Complex.conj_ofReal]
  congr 1
  rw [map_sum]
  simp only [map_mul, Complex.conj_conj, mulVec, dotProduct, map_sum, Finset.mul_sum]
  rw [Finset.sum_comm]
  apply Finset.sum_congr rfl
  intro s _
  apply Finset.sum_congr rfl
  intro s' _
  have : (starRingEnd ℂ) (O s' s) = O s s' := hO.apply s s'
  rw [this]
  ring

theorem bornCov_eq (O : Matrix C C ℂ) (ψ g : C → ℂ) (h : ∀ s, ψ s ≠ 0) (hZ : 0 < norm2 ψ) :
    bornCov O ψ g = (∑ s, (starRingEnd ℂ) (g s * ψ s) * (O *ᵥ ψ) s) / (norm2 ψ : ℂ)
      - (starRingEnd ℂ) (∑ s, ((Complex.normSq (ψ s) / norm2 ψ : ℝ) : ℂ) * g s) * expect O ψ := by
  unfold bornCov
  generalize hgb : ∑ s', ((Complex.normSq (ψ s') / norm2 ψ : ℝ) : ℂ) * g s' = gb
  have e : ∀ s, ((Complex.normSq (ψ s) / norm2 ψ : ℝ) : ℂ)
      * ((starRingEnd ℂ) (g s - gb) * (localValue O ψ s - expect O ψ))
      = ((Complex.normSq (ψ s) / norm2 ψ : ℝ) : ℂ) * ((starRingEnd ℂ) (g s) * localValue O ψ s)
      - (starRingEnd ℂ) gb * (((Complex.normSq (ψ s) / norm2 ψ : ℝ) : ℂ) * localValue O ψ s)
      - (starRingEnd ℂ) (((Complex.normSq (ψ s) / norm2 ψ : ℝ) : ℂ) * g s) * expect O ψ
      + ((Complex.normSq (ψ s) / norm2 ψ : ℝ) : ℂ) * ((starRingEnd ℂ) gb * expect O ψ) := by
    intro s
    rw [map_sub, map_mul, Complex.conj_ofReal]
    ring
  simp only [e, Finset.sum_add_distrib, Finset.sum_sub_distrib, ← Finset.mul_sum, ← Finset.sum_mul]
  rw [born_mean O ψ h, ← map_sum, hgb]
  have h1 : (∑ s, ((Complex.normSq (ψ s) / norm2 ψ : ℝ) : ℂ)) = 1 := by
    rw [← Complex.ofReal_sum, born_total ψ hZ, Complex.ofReal_one]
  rw [h1]
  have h2 : ∑ s, ((Complex.normSq (ψ s) / norm2 ψ : ℝ) : ℂ) * ((starRingEnd ℂ) (g s) * localValue O ψ s)
      = (∑ s, (starRingEnd ℂ) (g s * ψ s) * (O *ᵥ ψ) s) / (norm2 ψ : ℂ) := by
    rw [Finset.sum_div]
    apply Finset.sum_congr rfl
    intro s _
    have := born_mul_local O ψ s (h s) ((starRingEnd ℂ) (g s))
    rw [map_mul, mul_assoc, ← this]
    push_cast
    ring
  rw [h2]
  ring

/-- The derivative of an expectation value along a curve of wave functions `exp(L_t)`. -/
theorem hasDerivAt_expect (O : Matrix C C ℂ) (hO : O.IsHermitian) [Nonempty C] (L : ℝ → C → ℂ)
    (g : C → ℂ) (t₀ : ℝ) (hL : ∀ s, HasDerivAt (fun t => L t s) (g s) t₀) :
    HasDerivAt (fun t => expect O fun s => Complex.exp (L t s))
      ((2 * (bornCov O (fun s => Complex.exp (L t₀ s)) g).re : ℝ) : ℂ) t₀ := by
  set ψ : C → ℂ := fun s => Complex.exp (L t₀ s) with hψ
  have hne : ∀ s, ψ s ≠ 0 := fun s => Complex.exp_ne_zero _
  have hZ : 0 < norm2 ψ := norm2_pos ψ (Classical.arbitrary C) (hne _)
  have hZc : (norm2 ψ : ℂ) ≠ 0 := by exact_mod_cast hZ.ne'
  have hexp : ∀ s, HasDerivAt (fun t => Complex.exp (L t s)) (g s * ψ s) t₀ := by
    intro s
    have := (hL s).cexp
    rwa [mul_comm] at this
  have hconj : ∀ s, HasDerivAt (fun t => (starRingEnd ℂ) (Complex.exp (L t s)))
      ((starRingEnd ℂ) (g s * ψ s)) t₀ := fun s => (hexp s).star
  have hO1 : ∀ s, HasDerivAt (fun t => (O *ᵥ fun s' => Complex.exp (L t s')) s)
      ((O *ᵥ fun s' => g s' * ψ s') s) t₀ := by
    intro s
    simp only [mulVec, dotProduct]
    apply HasDerivAt.fun_sum
    intro s' _
    exact (hexp s').const_mul _
  have hA : HasDerivAt (fun t => ∑ s, (starRingEnd ℂ) (Complex.exp (L t s))
      * (O *ᵥ fun s' => Complex.exp (L t s')) s)
      (∑ s, ((starRingEnd ℂ) (g s * ψ s) * (O *ᵥ ψ) s
        + (starRingEnd ℂ) (ψ s) * (O *ᵥ fun s' => g s' * ψ s') s)) t₀ := by
    apply HasDerivAt.fun_sum
    intro s _
    exact (hconj s).mul (hO1 s)
  have hN : HasDerivAt (fun t => ((norm2 fun s => Complex.exp (L t s) : ℝ) : ℂ))
      (∑ s, ((starRingEnd ℂ) (g s * ψ s) * ψ s + (starRingEnd ℂ) (ψ s) * (g s * ψ s))) t₀ := by
    have e : (fun t => ((norm2 fun s => Complex.exp (L t s) : ℝ) : ℂ))
        = fun t => ∑ s, (starRingEnd ℂ) (Complex.exp (L t s)) * Complex.exp (L t s) := by
      funext t
      unfold norm2
      push_cast
      exact Finset.sum_congr rfl fun s _ => Complex.normSq_eq_conj_mul_self
    rw [e]
    apply HasDerivAt.fun_sum
    intro s _
    exact (hconj s).mul (hexp s)
  have hQ := hA.div hN hZc
  unfold expect
  refine hQ.congr_deriv ?_
  -- identify the derivative
  set X : ℂ := ∑ s, (starRingEnd ℂ) (g s * ψ s) * (O *ᵥ ψ) s with hX
  have hX' : ∑ s, (starRingEnd ℂ) (ψ s) * (O *ᵥ fun s' => g s' * ψ s') s = (starRingEnd ℂ) X := by
    rw [hX, map_sum]
    simp only [map_mul, Complex.conj_conj, mulVec, dotProduct, map_sum, Finset.mul_sum]
    rw [Finset.sum_comm]
    apply Finset.sum_congr rfl
    intro s _
    apply Finset.sum_congr rfl
    intro s' _
    have : (starRingEnd ℂ) (O s s') = O s' s := hO.apply s' s
    rw [this]
    ring
  set gb : ℂ := ∑ s, ((Complex.normSq (ψ s) / norm2 ψ : ℝ) : ℂ) * g s with hgb
  have hgN : ∑ s, (starRingEnd ℂ) (ψ s) * (g s * ψ s) = (norm2 ψ : ℂ) * gb := by
    rw [hgb, Finset.mul_sum]
    apply Finset.sum_congr rfl
    intro s _
    push_cast
    rw [Complex.normSq_eq_conj_mul_self]
    field_simp
  have hgN' : ∑ s, (starRingEnd ℂ) (g s * ψ s) * ψ s = (norm2 ψ : ℂ) * (starRingEnd ℂ) gb := by
    rw [← Complex.conj_ofReal, ← map_mul, ← hgN, map_sum]
    apply Finset.sum_congr rfl
    intro s _
    simp only [map_mul, Complex.conj_conj]
    ring
  have hE : ∑ s, (starRingEnd ℂ) (ψ s) * (O *ᵥ ψ) s = (norm2 ψ : ℂ) * expect O ψ := by
    unfold expect
    field_simp
  have hcov := bornCov_eq O ψ g hne hZ
  rw [← hX, ← hgb] at hcov
  have hre : ((2 * (bornCov O ψ g).re : ℝ) : ℂ)
      = bornCov O ψ g + (starRingEnd ℂ) (bornCov O ψ g) := by
    rw [Complex.add_conj]
  rw [hre, hcov, map_sub, map_div₀, map_mul, Complex.conj_ofReal, Complex.conj_conj, expect_real O hO]
  simp only [Finset.sum_add_distrib]
  change ((X + ∑ s, (starRingEnd ℂ) (ψ s) * (O *ᵥ fun s' => g s' * ψ s') s) * (norm2 ψ : ℂ)
    - (∑ s, (starRingEnd ℂ) (ψ s) * (O *ᵥ ψ) s)
      * (∑ s, (starRingEnd ℂ) (g s * ψ s) * ψ s + ∑ s, (starRingEnd ℂ) (ψ s) * (g s * ψ s)))
    / (norm2 ψ : ℂ) ^ 2 = _
  rw [hX', hgN, hgN', hE]
  field_simp
  ring

end JVMC

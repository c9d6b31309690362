import Verif.Model.MeanGrad
import Verif.Lemmas.Variational
import Verif.Lemmas.Stats

/-! # Helper lemmas: derivatives of Born averages -/

namespace JVMC

open Spec

theorem normSq_cexp (z : ℂ) : Complex.normSq (Complex.exp z) = Real.exp (2 * z.re) := by
  rw [Complex.normSq_eq_norm_sq, Complex.norm_exp, sq, ← Real.exp_add]
  congr 1; ring

theorem hasDerivAt_re {f : ℝ → ℂ} {f' : ℂ} {t : ℝ} (h : HasDerivAt f f' t) :
    HasDerivAt (fun x => (f x).re) f'.re t :=
  (Complex.reCLM.hasFDerivAt.comp_hasDerivAt t h)

theorem hasDerivAt_bornMean {C : Type} [Fintype C] [Nonempty C] (L E : ℝ → C → ℂ) (g e : C → ℂ)
    (t₀ : ℝ) (hL : ∀ s, HasDerivAt (fun t => L t s) (g s) t₀)
    (hE : ∀ s, HasDerivAt (fun t => E t s) (e s) t₀) (p : C → ℝ)
    (hp : ∀ s, p s = Complex.normSq (Complex.exp (L t₀ s)) / norm2 fun s => Complex.exp (L t₀ s)) :
    HasDerivAt (fun t => bornMean (fun s => Complex.exp (L t s)) (E t))
      (∑ s, (p s : ℂ) * (((2 * (g s).re : ℝ) : ℂ)
          - ∑ s', (p s' : ℂ) * ((2 * (g s').re : ℝ) : ℂ))
          * (E t₀ s - ∑ s', (p s' : ℂ) * E t₀ s') + ∑ s, (p s : ℂ) * e s) t₀ := by
  set Z : ℝ := norm2 fun s => Complex.exp (L t₀ s) with hZdef
  have hZ : 0 < Z := norm2_pos _ (Classical.arbitrary C) (Complex.exp_ne_zero _)
  have hP : ∀ s, HasDerivAt (fun t => Complex.normSq (Complex.exp (L t s)))
      (2 * (g s).re * (p s * Z)) t₀ := by
    intro s
    simp only [normSq_cexp]
    have h := ((hasDerivAt_re (hL s)).const_mul 2).exp
    refine h.congr_deriv ?_
    rw [hp s, div_mul_cancel₀ _ hZ.ne', normSq_cexp]
    ring
  have hN : HasDerivAt (fun t => norm2 fun s => Complex.exp (L t s))
      (∑ s, 2 * (g s).re * (p s * Z)) t₀ := by
    unfold norm2
    exact HasDerivAt.fun_sum fun s _ => hP s
  have hq : ∀ s, HasDerivAt (fun t => Complex.normSq (Complex.exp (L t s))
      / norm2 fun s => Complex.exp (L t s))
      (p s * (2 * (g s).re - ∑ s', p s' * (2 * (g s').re))) t₀ := by
    intro s
    refine ((hP s).div hN hZ.ne').congr_deriv ?_
    have h1 : Complex.normSq (Complex.exp (L t₀ s)) = p s * Z := by
      rw [hp s, div_mul_cancel₀ _ hZ.ne']
    have h2 : ∑ s, 2 * (g s).re * (p s * Z) = (∑ s', p s' * (2 * (g s').re)) * Z := by
      rw [Finset.sum_mul]
      exact Finset.sum_congr rfl fun s _ => by ring
    rw [h1, h2, ← hZdef]
    field_simp
  have hall : HasDerivAt (fun t => bornMean (fun s => Complex.exp (L t s)) (E t))
      (∑ s, (((p s * (2 * (g s).re - ∑ s', p s' * (2 * (g s').re)) : ℝ) : ℂ) * E t₀ s
        + ((Complex.normSq (Complex.exp (L t₀ s)) / Z : ℝ) : ℂ) * e s)) t₀ := by
    unfold bornMean
    exact HasDerivAt.fun_sum fun s _ => (hq s).ofReal_comp.mul (hE s)
  refine hall.congr_deriv ?_
  simp only [← hp]
  rw [Finset.sum_add_distrib]
  congr 1
  have htot : ∑ s, p s = 1 := by
    simp only [hp]
    exact born_total _ hZ
  set m : ℝ := ∑ s', p s' * (2 * (g s').re) with hm
  have hmc : ∑ s', (p s' : ℂ) * ((2 * (g s').re : ℝ) : ℂ) = (m : ℂ) := by
    rw [hm]; push_cast; rfl
  rw [hmc]
  set E0 : ℂ := ∑ s', (p s' : ℂ) * E t₀ s'
  have h0 : ∑ s, (p s : ℂ) * (((2 * (g s).re : ℝ) : ℂ) - (m : ℂ)) = 0 := by
    simp only [mul_sub]
    rw [Finset.sum_sub_distrib, hmc, ← Finset.sum_mul, ← Complex.ofReal_sum, htot]
    simp
  simp only [mul_sub ((p _ : ℂ) * _)]
  rw [Finset.sum_sub_distrib, ← Finset.sum_mul, h0, zero_mul, sub_zero]
  apply Finset.sum_congr rfl
  intro s _
  push_cast
  ring

theorem globalSumNone_eq {A : Type} [AddCommMonoid A] (world : List (List A))
    (h : ∀ r ∈ world, r.length = 1) :
    globalSumNone world = .ok (world.map fun _ => world.flatten.sum) := by
  unfold globalSumNone
  rw [mapM_ok _ (fun r => r.sum)]
  · show Except.ok _ = Except.ok _
    unfold allreduceSum
    rw [List.map_map, ← List.sum_flatten]
    rfl
  · intro r hr
    rw [if_pos (h r hr)]
    simp [sumUpPmapd, pyHead]

theorem globalSumNone_error {A : Type} [AddCommMonoid A] (world : List (List A))
    (r : List A) (hr : r ∈ world) (h : r.length ≠ 1) :
    globalSumNone world = .error .valueError := by
  unfold globalSumNone
  rw [mapM_error _ .valueError _ r hr (if_neg h)]
  · rfl
  · intro b _
    by_cases hb : b.length = 1
    · rw [if_pos hb]
      exact .inr ⟨b.sum, by simp [sumUpPmapd, pyHead]⟩
    · exact .inl (if_neg hb)

end JVMC

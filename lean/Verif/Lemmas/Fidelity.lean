import Mathlib.Analysis.InnerProductSpace.Calculus
import Mathlib.Analysis.Calculus.Deriv.Inv
import Mathlib.Analysis.Calculus.MeanValue
import Mathlib.Analysis.SpecialFunctions.Sqrt
import Verif.Spec.Fidelity

/-!
# The angle between two evolving vectors
-/

namespace JVMC

open Set

section

variable {E : Type} [NormedAddCommGroup E] [InnerProductSpace ℂ E]

local notation "⟪" x ", " y "⟫" => inner ℂ x y

/-- The overlap of two vectors in units of their lengths. -/
noncomputable def overlap (φ ψ : E) : ℝ := Complex.normSq ⟪φ, ψ⟫ / (‖φ‖ ^ 2 * ‖ψ‖ ^ 2)

theorem overlap_nonneg (φ ψ : E) : 0 ≤ overlap φ ψ := by
  unfold overlap
  exact div_nonneg (Complex.normSq_nonneg _) (by positivity)

theorem overlap_le_one (φ ψ : E) : overlap φ ψ ≤ 1 := by
  unfold overlap
  apply div_le_one_of_le₀ _ (by positivity)
  rw [← mul_pow, Complex.normSq_eq_norm_sq]
  exact pow_le_pow_left₀ (norm_nonneg _) (norm_inner_le_norm φ ψ) 2

/-- The component of `φ` orthogonal to `ψ`. -/
theorem orth_norm (φ ψ : E) (hφ : φ ≠ 0) (hψ : ψ ≠ 0) :
    ‖φ - (⟪ψ, φ⟫ / ((‖ψ‖ ^ 2 : ℝ) : ℂ)) • ψ‖ ^ 2 = ‖φ‖ ^ 2 * (1 - overlap φ ψ) := by
  have hN : ‖ψ‖ ^ 2 ≠ 0 := by positivity
  have hM : ‖φ‖ ^ 2 ≠ 0 := by positivity
  have h0 : ‖⟪ψ, φ⟫‖ ^ 2 = Complex.normSq ⟪φ, ψ⟫ := by
    rw [Complex.normSq_eq_norm_sq, norm_inner_symm]
  have h1 : ⟪ψ, φ⟫ / ((‖ψ‖ ^ 2 : ℝ) : ℂ) * ⟪φ, ψ⟫ = ((Complex.normSq ⟪φ, ψ⟫ / ‖ψ‖ ^ 2 : ℝ) : ℂ) := by
    rw [← inner_conj_symm ψ φ]
    push_cast
    rw [Complex.normSq_eq_conj_mul_self]
    ring
  rw [@norm_sub_sq ℂ, inner_smul_right, norm_smul, mul_pow, norm_div, Complex.norm_real, Real.norm_eq_abs,
    abs_of_nonneg (by positivity : (0 : ℝ) ≤ ‖ψ‖ ^ 2), div_pow, h0, h1]
  change ‖φ‖ ^ 2 - 2 * ((Complex.normSq ⟪φ, ψ⟫ / ‖ψ‖ ^ 2 : ℝ) : ℂ).re + _ = _
  rw [Complex.ofReal_re]
  unfold overlap
  field_simp
  ring

/-- The overlap of a vector with the part of another that is orthogonal to a third. -/
theorem inner_orth_le (φ ψ r : E) (hφ : φ ≠ 0) (hψ : ψ ≠ 0) (hr : ⟪ψ, r⟫ = 0) :
    ‖⟪φ, r⟫‖ ≤ ‖φ‖ * √(1 - overlap φ ψ) * ‖r‖ := by
  have h1 : ⟪φ, r⟫ = ⟪φ - (⟪ψ, φ⟫ / ((‖ψ‖ ^ 2 : ℝ) : ℂ)) • ψ, r⟫ := by
    rw [inner_sub_left, inner_smul_left, hr, mul_zero, sub_zero]
  rw [h1]
  refine (norm_inner_le_norm _ _).trans (le_of_eq ?_)
  congr 1
  have h2 := orth_norm φ ψ hφ hψ
  have h3 : 0 ≤ 1 - overlap φ ψ := sub_nonneg.mpr (overlap_le_one φ ψ)
  rw [← Real.sqrt_sq (norm_nonneg (φ - (⟪ψ, φ⟫ / ((‖ψ‖ ^ 2 : ℝ) : ℂ)) • ψ)), h2,
    Real.sqrt_mul (by positivity), Real.sqrt_sq (norm_nonneg _)]

variable [NormedSpace ℝ E]

/-- The rate at which the overlap changes if `φ` follows a generator without growth and `ψ` follows it
up to `R`. -/
theorem overlap_deriv {s : Set ℝ} {t : ℝ} {φ ψ : ℝ → E} {φ' ψ' : E}
    (hφ : HasDerivWithinAt φ φ' s t) (hψ : HasDerivWithinAt ψ ψ' s t) (hφ0 : φ t ≠ 0) (hψ0 : ψ t ≠ 0)
    (K : E → E) (hK : ∀ x y, ⟪K x, y⟫ = -⟪x, K y⟫) (hφK : φ' = K (φ t)) (r : E) (a : ℂ)
    (hr : ψ' = K (ψ t) + a • ψ t + r) (hr0 : ⟪ψ t, r⟫ = 0) (ε : ℝ) (hε : ‖r‖ ≤ ε * ‖ψ t‖) :
    ∃ f', HasDerivWithinAt (fun τ => overlap (φ τ) (ψ τ)) f' s t ∧
      |f'| ≤ 2 * √(1 - overlap (φ t) (ψ t)) * ε := by
  have dinner : ∀ {x y : ℝ → E} {x' y' : E}, HasDerivWithinAt x x' s t → HasDerivWithinAt y y' s t →
      HasDerivWithinAt (fun τ => ⟪x τ, y τ⟫) (⟪x t, y'⟫ + ⟪x', y t⟫) s t :=
    fun hx hy => hx.inner ℂ hy
  have dre : ∀ {z : ℝ → ℂ} {z' : ℂ}, HasDerivWithinAt z z' s t →
      HasDerivWithinAt (fun τ => (z τ).re) z'.re s t := fun h =>
    (Complex.reCLM.hasFDerivAt).comp_hasDerivWithinAt t h
  have dim : ∀ {z : ℝ → ℂ} {z' : ℂ}, HasDerivWithinAt z z' s t →
      HasDerivWithinAt (fun τ => (z τ).im) z'.im s t := fun h =>
    (Complex.imCLM.hasFDerivAt).comp_hasDerivWithinAt t h
  have hsq : ∀ x : E, ‖x‖ ^ 2 = (⟪x, x⟫).re := fun x => by
    rw [inner_self_eq_norm_sq_to_K]
    norm_cast
  have hKre : ∀ x, (⟪x, K x⟫).re = 0 := by
    intro x
    have h1 := hK x x
    have h2 := inner_conj_symm (𝕜 := ℂ) (K x) x
    have h3 := congrArg Complex.re h1
    have h4 := congrArg Complex.re h2
    simp only [Complex.conj_re, Complex.neg_re] at h3 h4
    linarith
  -- lengths
  have d1 : HasDerivWithinAt (fun τ => ‖φ τ‖ ^ 2) 0 s t := by
    have h := dre (dinner hφ hφ)
    simp only [hsq]
    refine h.congr_deriv ?_
    rw [hφK, Complex.add_re, hKre, hK]
    simp [hKre]
  have d2 : HasDerivWithinAt (fun τ => ‖ψ τ‖ ^ 2) (2 * a.re * ‖ψ t‖ ^ 2) s t := by
    have h := dre (dinner hψ hψ)
    simp only [hsq]
    refine h.congr_deriv ?_
    have e1 : ⟪ψ t, ψ'⟫ = ⟪ψ t, K (ψ t)⟫ + a * ⟪ψ t, ψ t⟫ := by
      rw [hr, inner_add_right, inner_add_right, inner_smul_right, hr0, add_zero]
    have e2 : (⟪ψ', ψ t⟫).re = (⟪ψ t, ψ'⟫).re := by
      rw [← inner_conj_symm, Complex.conj_re]
    have e3 : (⟪ψ t, ψ t⟫).im = 0 := by
      rw [inner_self_eq_norm_sq_to_K]
      norm_cast
    rw [Complex.add_re, e2, e1, Complex.add_re, hKre, Complex.mul_re, e3]
    ring
  have d3 : HasDerivWithinAt (fun τ => ⟪φ τ, ψ τ⟫) (a * ⟪φ t, ψ t⟫ + ⟪φ t, r⟫) s t := by
    refine (dinner hφ hψ).congr_deriv ?_
    rw [hr, hφK, hK, inner_add_right, inner_add_right, inner_smul_right]
    ring
  set p := ⟪φ t, ψ t⟫ with hp
  set q := ⟪φ t, r⟫ with hq
  have d4 : HasDerivWithinAt (fun τ => Complex.normSq ⟪φ τ, ψ τ⟫)
      (2 * a.re * Complex.normSq p + 2 * ((starRingEnd ℂ) p * q).re) s t := by
    have hre := dre d3
    have him := dim d3
    have := (hre.mul hre).add (him.mul him)
    have e : (fun τ => Complex.normSq ⟪φ τ, ψ τ⟫) = (((fun τ => (⟪φ τ, ψ τ⟫).re) * fun τ => (⟪φ τ, ψ τ⟫).re)
        + ((fun τ => (⟪φ τ, ψ τ⟫).im) * fun τ => (⟪φ τ, ψ τ⟫).im)) := by
      funext τ
      simp [Complex.normSq_apply]
    rw [e]
    refine this.congr_deriv ?_
    simp only [← hp, Complex.normSq_apply, Complex.add_re, Complex.add_im, Complex.mul_re, Complex.mul_im,
      Complex.conj_re, Complex.conj_im]
    ring
  have hN : ‖ψ t‖ ^ 2 ≠ 0 := by positivity
  have hM : ‖φ t‖ ^ 2 ≠ 0 := by positivity
  have d5 := d4.fun_div (d1.fun_mul d2) (mul_ne_zero hM hN)
  refine ⟨2 * ((starRingEnd ℂ) p * q).re / (‖φ t‖ ^ 2 * ‖ψ t‖ ^ 2), ?_, ?_⟩
  · refine d5.congr_deriv ?_
    rw [← hp]
    field_simp
    ring
  · have h1 : |((starRingEnd ℂ) p * q).re| ≤ ‖p‖ * ‖q‖ := by
      refine (Complex.abs_re_le_norm _).trans ?_
      rw [norm_mul, RCLike.norm_conj]
    have h2 : ‖p‖ ≤ ‖φ t‖ * ‖ψ t‖ := norm_inner_le_norm _ _
    have h3 : ‖q‖ ≤ ‖φ t‖ * √(1 - overlap (φ t) (ψ t)) * (ε * ‖ψ t‖) :=
      (inner_orth_le (φ t) (ψ t) r hφ0 hψ0 hr0).trans (mul_le_mul_of_nonneg_left hε (by positivity))
    rw [abs_div, abs_mul, abs_two, abs_of_nonneg (by positivity : (0 : ℝ) ≤ ‖φ t‖ ^ 2 * ‖ψ t‖ ^ 2),
      div_le_iff₀ (by positivity)]
    have h4 : ‖p‖ * ‖q‖ ≤ ‖φ t‖ * ‖ψ t‖ * (‖φ t‖ * √(1 - overlap (φ t) (ψ t)) * (ε * ‖ψ t‖)) :=
      mul_le_mul h2 h3 (norm_nonneg _) (by positivity)
    calc 2 * |((starRingEnd ℂ) p * q).re| ≤ 2 * (‖p‖ * ‖q‖) := by linarith
      _ ≤ 2 * (‖φ t‖ * ‖ψ t‖ * (‖φ t‖ * √(1 - overlap (φ t) (ψ t)) * (ε * ‖ψ t‖))) := by linarith
      _ = _ := by ring

/-- The sine of the angle grows at most at the rate `ε`. -/
theorem sine_grows {T : ℝ} (hT : 0 ≤ T) {φ ψ : ℝ → E} {φ' ψ' : ℝ → E}
    (hφ : ∀ t ∈ Icc 0 T, HasDerivWithinAt φ (φ' t) (Icc 0 T) t)
    (hψ : ∀ t ∈ Icc 0 T, HasDerivWithinAt ψ (ψ' t) (Icc 0 T) t)
    (hφ0 : ∀ t ∈ Icc 0 T, φ t ≠ 0) (hψ0 : ∀ t ∈ Icc 0 T, ψ t ≠ 0)
    (K : ℝ → E → E) (hK : ∀ t ∈ Icc 0 T, ∀ x y, ⟪K t x, y⟫ = -⟪x, K t y⟫)
    (hφK : ∀ t ∈ Icc 0 T, φ' t = K t (φ t))
    (ε B : ℝ → ℝ) (hB : ∀ t ∈ Icc 0 T, HasDerivWithinAt B (ε t) (Icc 0 T) t)
    (hr : ∀ t ∈ Icc 0 T, ∃ (r : E) (a : ℂ), ψ' t = K t (ψ t) + a • ψ t + r ∧ ⟪ψ t, r⟫ = 0 ∧
      ‖r‖ ≤ ε t * ‖ψ t‖) :
    √(1 - overlap (φ T) (ψ T)) ≤ √(1 - overlap (φ 0) (ψ 0)) + (B T - B 0) := by
  have hov : ∀ t ∈ Icc 0 T, ∃ f', HasDerivWithinAt (fun τ => overlap (φ τ) (ψ τ)) f' (Icc 0 T) t ∧
      |f'| ≤ 2 * √(1 - overlap (φ t) (ψ t)) * ε t := by
    intro t ht
    obtain ⟨r, a, h1, h2, h3⟩ := hr t ht
    exact overlap_deriv (hφ t ht) (hψ t ht) (hφ0 t ht) (hψ0 t ht) (K t) (hK t ht) (hφK t ht) r a h1 h2 (ε t) h3
  choose! f' hf' hfb using hov
  have hε0 : ∀ t ∈ Icc 0 T, 0 ≤ ε t := by
    intro t ht
    obtain ⟨r, a, -, -, h3⟩ := hr t ht
    have := norm_pos_iff.mpr (hψ0 t ht)
    exact nonneg_of_mul_nonneg_left ((norm_nonneg r).trans h3) this
  apply le_of_forall_pos_le_add
  intro η hη
  have hnn : ∀ t, 0 ≤ 1 - overlap (φ t) (ψ t) := fun t => sub_nonneg.mpr (overlap_le_one _ _)
  have hpos : ∀ t, 0 < 1 - overlap (φ t) (ψ t) + η ^ 2 := fun t => by
    have := hnn t
    positivity
  have hd : ∀ t ∈ Icc 0 T, HasDerivWithinAt (fun τ => √(1 - overlap (φ τ) (ψ τ) + η ^ 2))
      (-f' t / (2 * √(1 - overlap (φ t) (ψ t) + η ^ 2))) (Icc 0 T) t := by
    intro t ht
    have h1 := (((hf' t ht).const_sub 1).add_const (η ^ 2)).sqrt (hpos t).ne'
    exact h1
  have hright : ∀ {g : ℝ → ℝ} {g' : ℝ} {t : ℝ}, t ∈ Ico 0 T → HasDerivWithinAt g g' (Icc 0 T) t →
      HasDerivWithinAt g g' (Ici t) t := by
    intro g g' t ht h
    exact h.mono_of_mem_nhdsWithin (Icc_mem_nhdsGE_of_mem ht)
  have key := image_le_of_deriv_right_le_deriv_boundary
    (f := fun τ => √(1 - overlap (φ τ) (ψ τ) + η ^ 2))
    (f' := fun t => -f' t / (2 * √(1 - overlap (φ t) (ψ t) + η ^ 2)))
    (a := 0) (b := T) (fun t ht => (hd t ht).continuousWithinAt)
    (fun t ht => hright ht (hd t ⟨ht.1, ht.2.le⟩))
    (B := fun τ => √(1 - overlap (φ 0) (ψ 0) + η ^ 2) + (B τ - B 0)) (B' := ε) (by simp)
    (fun t ht => (((hB t ht).sub_const (B 0)).const_add _).continuousWithinAt)
    (fun t ht => hright ht (((hB t ⟨ht.1, ht.2.le⟩).sub_const (B 0)).const_add _))
    (by
      intro t ht
      have ht' : t ∈ Icc 0 T := ⟨ht.1, ht.2.le⟩
      rw [div_le_iff₀ (by have := Real.sqrt_pos.mpr (hpos t); positivity)]
      have h1 := neg_abs_le (f' t)
      have h2 := hfb t ht'
      have h3 : √(1 - overlap (φ t) (ψ t)) ≤ √(1 - overlap (φ t) (ψ t) + η ^ 2) :=
        Real.sqrt_le_sqrt (by nlinarith)
      have h4 := mul_le_mul_of_nonneg_right h3 (hε0 t ht')
      nlinarith)
    (right_mem_Icc.mpr hT)
  have hl : √(1 - overlap (φ T) (ψ T)) ≤ √(1 - overlap (φ T) (ψ T) + η ^ 2) :=
    Real.sqrt_le_sqrt (by nlinarith)
  have hu : √(1 - overlap (φ 0) (ψ 0) + η ^ 2) ≤ √(1 - overlap (φ 0) (ψ 0)) + η := by
    rw [Real.sqrt_le_left (by positivity)]
    nlinarith [Real.sq_sqrt (hnn 0), Real.sqrt_nonneg (1 - overlap (φ 0) (ψ 0))]
  linarith

end

end JVMC

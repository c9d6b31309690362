import Mathlib.Analysis.Calculus.Deriv.Prod
import Mathlib.Analysis.InnerProductSpace.PiL2
import Verif.Lemmas.Fidelity
import Verif.Props.TdvpOptimal

/-!
# C97: the reported TDVP errors bound the distance from the exact dynamics

`φ` is the exact solution of the Schrödinger equation, `θ` a trajectory of parameters with TDVP velocities.
-/

namespace JVMC

open Spec Set Matrix

section states

variable {C : Type} [Fintype C] {O : Matrix C C ℂ}

/-- A wave function as an element of a Hilbert space. -/
noncomputable def toE (ψ : C → ℂ) : EuclideanSpace ℂ C := WithLp.toLp 2 ψ

theorem toE_norm (ψ : C → ℂ) : ‖toE ψ‖ ^ 2 = norm2 ψ := by
  rw [EuclideanSpace.norm_sq_eq]
  unfold norm2 toE
  simp only [Complex.normSq_eq_norm_sq]

theorem toE_inner (φ ψ : C → ℂ) : inner ℂ (toE φ) (toE ψ) = ∑ s, (starRingEnd ℂ) (φ s) * ψ s := by
  rw [PiLp.inner_apply]
  apply Finset.sum_congr rfl
  intro s _
  simp [toE, mul_comm]

theorem toE_overlap (φ ψ : C → ℂ) : overlap (toE φ) (toE ψ) = fidelity φ ψ := by
  unfold overlap fidelity
  rw [toE_norm, toE_norm, toE_inner]

omit [Fintype C] in
theorem toE_ne (ψ : C → ℂ) (h : ψ ≠ 0) : toE ψ ≠ 0 := by
  intro h0
  apply h
  have := congrArg (WithLp.ofLp) h0
  simpa [toE] using this

theorem toE_deriv {S : Set ℝ} {t : ℝ} {ψ : ℝ → C → ℂ} {ψ' : C → ℂ}
    (h : ∀ s, HasDerivWithinAt (fun τ => ψ τ s) (ψ' s) S t) :
    HasDerivWithinAt (fun τ => toE (ψ τ)) (toE ψ') S t := by
  have h1 : HasDerivWithinAt ψ ψ' S t := hasDerivWithinAt_pi.mpr h
  exact ((PiLp.continuousLinearEquiv 2 ℝ (fun _ : C => ℂ)).symm.toContinuousLinearMap.hasFDerivAt).comp_hasDerivWithinAt t h1

/-- The generator `- i y O` on the Hilbert space. -/
noncomputable def genE (O : Matrix C C ℂ) (x : ℂ) (v : EuclideanSpace ℂ C) : EuclideanSpace ℂ C :=
  toE fun s => -x * (O *ᵥ v.ofLp) s

theorem genE_skew (hO : O.IsHermitian) (y : ℝ) (v w : EuclideanSpace ℂ C) :
    inner ℂ (genE O (Complex.I * y) v) w = -inner ℂ v (genE O (Complex.I * y) w) := by
  have hv : v = toE v.ofLp := rfl
  have hw : w = toE w.ofLp := rfl
  conv_lhs => rw [hw]
  conv_rhs => rw [hv]
  unfold genE
  rw [toE_inner, toE_inner]
  have h1 : ∑ s, (starRingEnd ℂ) ((O *ᵥ v.ofLp) s) * w.ofLp s
      = ∑ s, (starRingEnd ℂ) (v.ofLp s) * (O *ᵥ w.ofLp) s := by
    have h2 : star (O *ᵥ v.ofLp) ⬝ᵥ w.ofLp = star v.ofLp ⬝ᵥ (O *ᵥ w.ofLp) := by
      rw [star_mulVec, hO.eq, dotProduct_mulVec]
    exact h2
  have e1 : ∀ s, (starRingEnd ℂ) (-(Complex.I * y) * (O *ᵥ v.ofLp) s) * w.ofLp s
      = Complex.I * y * ((starRingEnd ℂ) ((O *ᵥ v.ofLp) s) * w.ofLp s) := by
    intro s
    simp only [map_mul, map_neg, Complex.conj_I, Complex.conj_ofReal]
    ring
  have e2 : ∀ s, (starRingEnd ℂ) (v.ofLp s) * (-(Complex.I * y) * (O *ᵥ w.ofLp) s)
      = -(Complex.I * y) * ((starRingEnd ℂ) (v.ofLp s) * (O *ᵥ w.ofLp) s) := by
    intro s
    ring
  simp only [e1, e2, ← Finset.mul_sum]
  rw [h1]
  ring

theorem norm2_pos_of_ne (ψ : C → ℂ) (h : ψ ≠ 0) : 0 < norm2 ψ := by
  rw [← toE_norm]
  have := norm_pos_iff.mpr (toE_ne ψ h)
  positivity

/-- What remains of a velocity after subtracting the best multiple of `ψ`. -/
theorem offRay_split (ψ χ : C → ℂ) (hψ : ψ ≠ 0) (ε : ℝ) (hε : 0 ≤ ε) (h : offRay ψ χ ≤ ε ^ 2) :
    ∃ (r : C → ℂ) (a : ℂ), (∀ s, χ s = a * ψ s + r s) ∧ inner ℂ (toE ψ) (toE r) = 0 ∧
      ‖toE r‖ ≤ ε * ‖toE ψ‖ := by
  set a := (∑ c, (starRingEnd ℂ) (ψ c) * χ c) / (norm2 ψ : ℂ) with ha
  have hZ := norm2_pos_of_ne ψ hψ
  have hZc : (norm2 ψ : ℂ) ≠ 0 := by exact_mod_cast hZ.ne'
  refine ⟨fun s => χ s - a * ψ s, a, fun s => by ring, ?_, ?_⟩
  · rw [toE_inner]
    have h1 : ∑ s, (starRingEnd ℂ) (ψ s) * (χ s - a * ψ s)
        = ∑ s, (starRingEnd ℂ) (ψ s) * χ s - a * (norm2 ψ : ℂ) := by
      unfold norm2
      rw [Complex.ofReal_sum, Finset.mul_sum, ← Finset.sum_sub_distrib]
      refine Finset.sum_congr rfl fun s _ => ?_
      rw [Complex.normSq_eq_conj_mul_self]
      ring
    rw [h1, ha, div_mul_cancel₀ _ hZc, sub_self]
  · unfold offRay at h
    rw [div_le_iff₀ hZ, ← ha, ← toE_norm, ← toE_norm, ← mul_pow] at h
    exact (sq_le_sq₀ (norm_nonneg _) (by positivity)).mp h

/-- A solution of the Schrödinger equation does not vanish. -/
theorem evolves_ne {H : ℝ → Matrix C C ℂ} (y : ℝ) {φ : ℝ → C → ℂ} {T : ℝ}
    (hO : ∀ t ∈ Icc 0 T, (H t).IsHermitian) (hφ : Evolves H (Complex.I * y) φ T) (h0 : φ 0 ≠ 0) : ∀ t ∈ Icc 0 T, φ t ≠ 0 := by
  have hd : ∀ t ∈ Icc 0 T, HasDerivWithinAt (fun τ => toE (φ τ)) (genE (H t) (Complex.I * y) (toE (φ t)))
      (Icc 0 T) t := fun t ht => toE_deriv (hφ t ht)
  have hn : ∀ t ∈ Icc 0 T, HasDerivWithinAt (fun τ => ‖toE (φ τ)‖ ^ 2) 0 (Icc 0 T) t := by
    intro t ht
    have h1 := (hd t ht).inner ℂ (hd t ht)
    have h2 := (Complex.reCLM.hasFDerivAt).comp_hasDerivWithinAt t h1
    have e : (fun τ => ‖toE (φ τ)‖ ^ 2)
        = ⇑Complex.reCLM ∘ fun τ => inner ℂ (toE (φ τ)) (toE (φ τ)) := by
      funext τ
      rw [Function.comp_apply, inner_self_eq_norm_sq_to_K, Complex.reCLM_apply]
      norm_cast
    rw [e]
    refine h2.congr_deriv ?_
    rw [genE_skew (hO t ht)]
    simp
  intro t ht hz
  have hc := constant_of_has_deriv_right_zero (fun t ht => (hn t ht).continuousWithinAt)
    (fun t ht => (hn t ⟨ht.1, ht.2.le⟩).mono_of_mem_nhdsWithin (Icc_mem_nhdsGE_of_mem ht)) t ht
  rw [toE_norm, toE_norm, hz] at hc
  have := norm2_pos_of_ne (φ 0) h0
  rw [← hc] at this
  simp [norm2] at this

/-- Two states, one of which follows the Schrödinger equation exactly and the other up to a velocity
`ε(t)`, separate at most at the rate `ε(t)`; `B` is an antiderivative of `ε`. -/
theorem c97_distance {H : ℝ → Matrix C C ℂ} (y : ℝ) {T : ℝ} (hT : 0 ≤ T)
    (hO : ∀ t ∈ Icc 0 T, (H t).IsHermitian) (φ ψ ψ' : ℝ → C → ℂ) (hφ : Evolves H (Complex.I * y) φ T) (hφ0 : φ 0 ≠ 0)
    (hψ : ∀ t ∈ Icc 0 T, ∀ s, HasDerivWithinAt (fun τ => ψ τ s) (ψ' t s) (Icc 0 T) t)
    (hψ0 : ∀ t ∈ Icc 0 T, ψ t ≠ 0) (ε B : ℝ → ℝ) (hε : ∀ t ∈ Icc 0 T, 0 ≤ ε t)
    (hB : ∀ t ∈ Icc 0 T, HasDerivWithinAt B (ε t) (Icc 0 T) t)
    (h : ∀ t ∈ Icc 0 T, offRay (ψ t) (fun s => ψ' t s + Complex.I * y * (H t *ᵥ ψ t) s) ≤ ε t ^ 2) :
    stateDistance (φ T) (ψ T) ≤ stateDistance (φ 0) (ψ 0) + (B T - B 0) := by
  have hφne := evolves_ne y hO hφ hφ0
  have := sine_grows hT (φ := fun t => toE (φ t)) (ψ := fun t => toE (ψ t))
    (φ' := fun t => genE (H t) (Complex.I * y) (toE (φ t))) (ψ' := fun t => toE (ψ' t))
    (fun t ht => toE_deriv (hφ t ht)) (fun t ht => toE_deriv (hψ t ht))
    (fun t ht => toE_ne _ (hφne t ht)) (fun t ht => toE_ne _ (hψ0 t ht))
    (fun t => genE (H t) (Complex.I * y)) (fun t ht => genE_skew (hO t ht) y) (fun t _ => rfl) ε B hB (by
      intro t ht
      obtain ⟨r, a, h1, h2, h3⟩ := offRay_split (ψ t) _ (hψ0 t ht) (ε t) (hε t ht) (h t ht)
      refine ⟨toE r, a, ?_, h2, h3⟩
      have : ψ' t = fun s => -(Complex.I * y) * (H t *ᵥ ψ t) s + a * ψ t s + r s := by
        funext s
        have := h1 s
        linear_combination this
      rw [this]
      rfl)
  simp only [toE_overlap] at this
  exact this

theorem distance_self (ψ : C → ℂ) (hψ : ψ ≠ 0) : stateDistance ψ ψ = 0 := by
  have hZ := norm2_pos_of_ne ψ hψ
  have h1 : ∑ s, (starRingEnd ℂ) (ψ s) * ψ s = (norm2 ψ : ℂ) := by
    unfold norm2
    rw [Complex.ofReal_sum]
    exact Finset.sum_congr rfl fun s _ => (Complex.normSq_eq_conj_mul_self).symm
  unfold stateDistance fidelity
  rw [h1, Complex.normSq_ofReal, div_self (by positivity), sub_self, Real.sqrt_zero]

/-- Distance zero means equality up to norm and phase. -/
theorem distance_zero (φ ψ : C → ℂ) (hφ : φ ≠ 0) (hψ : ψ ≠ 0) (h : stateDistance φ ψ ≤ 0) :
    ∃ c : ℂ, φ = fun s => c * ψ s := by
  have h1 := orth_norm (toE φ) (toE ψ) (toE_ne φ hφ) (toE_ne ψ hψ)
  have h2 : 1 - overlap (toE φ) (toE ψ) ≤ 0 := by
    rw [toE_overlap]
    unfold stateDistance at h
    exact Real.sqrt_eq_zero'.mp (le_antisymm h (Real.sqrt_nonneg _))
  set c := inner ℂ (toE ψ) (toE φ) / ((‖toE ψ‖ ^ 2 : ℝ) : ℂ) with hc
  have h3 : ‖toE φ - c • toE ψ‖ ^ 2 ≤ 0 := by
    rw [h1]
    exact mul_nonpos_of_nonneg_of_nonpos (by positivity) h2
  have h4 : toE φ - c • toE ψ = 0 := by
    rw [← norm_eq_zero]
    exact pow_eq_zero_iff (two_ne_zero) |>.mp (le_antisymm h3 (by positivity))
  refine ⟨c, ?_⟩
  have h5 := congrArg WithLp.ofLp (sub_eq_zero.mp h4)
  exact h5

/-- Expectation values of states that are close are close. -/
theorem c97_expect (A : Matrix C C ℂ) (M : ℝ) (hA : NormAtMost A M) (φ ψ : C → ℂ) (hφ : φ ≠ 0)
    (hψ : ψ ≠ 0) : ‖expect A φ - expect A ψ‖ ≤ 2 * M * stateDistance φ ψ := by
  -- normalised states with a real overlap
  have hlin : ∀ (v w : C → ℂ), toE (fun s => v s - w s) = toE v - toE w := fun _ _ => rfl
  have hlin' : ∀ (v w : C → ℂ), toE (fun s => v s + w s) = toE v + toE w := fun _ _ => rfl
  have hZφ := norm2_pos_of_ne φ hφ
  have hZψ := norm2_pos_of_ne ψ hψ
  have key : ∀ φ₁ ψ₁ : C → ℂ, norm2 φ₁ = 1 → norm2 ψ₁ = 1 → ∀ c : ℝ,
      (∑ s, (starRingEnd ℂ) (φ₁ s) * ψ₁ s) = (c : ℂ) →
      ‖(∑ s, (starRingEnd ℂ) (φ₁ s) * (A *ᵥ φ₁) s) - ∑ s, (starRingEnd ℂ) (ψ₁ s) * (A *ᵥ ψ₁) s‖
        ≤ 2 * M * √(1 - c ^ 2) := by
    intro φ₁ ψ₁ h1 h2 c hc
    have hbil : ∀ v w : C → ℂ, ‖∑ s, (starRingEnd ℂ) (v s) * (A *ᵥ w) s‖ ≤ M * (‖toE v‖ * ‖toE w‖) := by
      intro v w
      rw [← toE_inner]
      refine (norm_inner_le_norm _ _).trans ?_
      have : ‖toE (A *ᵥ w)‖ ≤ M * ‖toE w‖ := by
        rw [← sq_le_sq₀ (norm_nonneg _) (mul_nonneg hA.1 (norm_nonneg _)), mul_pow, toE_norm, toE_norm]
        exact hA.2 w
      calc ‖toE v‖ * ‖toE (A *ᵥ w)‖ ≤ ‖toE v‖ * (M * ‖toE w‖) :=
            mul_le_mul_of_nonneg_left this (norm_nonneg _)
        _ = _ := by ring
    have hpol : (∑ s, (starRingEnd ℂ) (φ₁ s) * (A *ᵥ φ₁) s) - ∑ s, (starRingEnd ℂ) (ψ₁ s) * (A *ᵥ ψ₁) s
        = (1 / 2) * ((∑ s, (starRingEnd ℂ) (φ₁ s - ψ₁ s) * (A *ᵥ fun s => φ₁ s + ψ₁ s) s)
          + ∑ s, (starRingEnd ℂ) (φ₁ s + ψ₁ s) * (A *ᵥ fun s => φ₁ s - ψ₁ s) s) := by
      have e1 : (A *ᵥ fun s => φ₁ s + ψ₁ s) = A *ᵥ φ₁ + A *ᵥ ψ₁ := mulVec_add A φ₁ ψ₁
      have e2 : (A *ᵥ fun s => φ₁ s - ψ₁ s) = A *ᵥ φ₁ - A *ᵥ ψ₁ := mulVec_sub A φ₁ ψ₁
      rw [e1, e2, ← Finset.sum_add_distrib, Finset.mul_sum, ← Finset.sum_sub_distrib]
      apply Finset.sum_congr rfl
      intro s _
      simp only [map_sub, map_add, Pi.add_apply, Pi.sub_apply]
      ring
    have hn1 : ‖toE (fun s => φ₁ s - ψ₁ s)‖ ^ 2 = 2 - 2 * c := by
      rw [hlin, @norm_sub_sq ℂ, toE_norm, toE_norm, h1, h2, toE_inner, hc]
      simp
      ring
    have hn2 : ‖toE (fun s => φ₁ s + ψ₁ s)‖ ^ 2 = 2 + 2 * c := by
      rw [hlin', @norm_add_sq ℂ, toE_norm, toE_norm, h1, h2, toE_inner, hc]
      simp
      ring
    have hprod : ‖toE (fun s => φ₁ s - ψ₁ s)‖ * ‖toE (fun s => φ₁ s + ψ₁ s)‖ = 2 * √(1 - c ^ 2) := by
      rw [← Real.sqrt_sq (mul_nonneg (norm_nonneg (toE fun s => φ₁ s - ψ₁ s))
        (norm_nonneg (toE fun s => φ₁ s + ψ₁ s))), mul_pow, hn1, hn2,
        show (2 - 2 * c) * (2 + 2 * c) = 2 ^ 2 * (1 - c ^ 2) by ring,
        Real.sqrt_mul (by norm_num), Real.sqrt_sq (by norm_num)]
    rw [hpol, norm_mul]
    have b1 := hbil (fun s => φ₁ s - ψ₁ s) (fun s => φ₁ s + ψ₁ s)
    have b2 := hbil (fun s => φ₁ s + ψ₁ s) (fun s => φ₁ s - ψ₁ s)
    rw [hprod] at b1
    rw [mul_comm ‖toE (fun s => φ₁ s + ψ₁ s)‖, hprod] at b2
    have b3 := norm_add_le (∑ s, (starRingEnd ℂ) (φ₁ s - ψ₁ s) * (A *ᵥ fun s => φ₁ s + ψ₁ s) s)
      (∑ s, (starRingEnd ℂ) (φ₁ s + ψ₁ s) * (A *ᵥ fun s => φ₁ s - ψ₁ s) s)
    have : ‖(1 / 2 : ℂ)‖ = 1 / 2 := by norm_num
    rw [this]
    linarith
  -- scale
  have hscale : ∀ (v : C → ℂ) (z : ℂ), (∑ s, (starRingEnd ℂ) (z * v s) * (A *ᵥ fun s => z * v s) s)
      = (Complex.normSq z : ℂ) * ∑ s, (starRingEnd ℂ) (v s) * (A *ᵥ v) s := by
    intro v z
    have : (A *ᵥ fun s => z * v s) = fun s => z * (A *ᵥ v) s := mulVec_smul A z v
    rw [this, Finset.mul_sum]
    apply Finset.sum_congr rfl
    intro s _
    rw [Complex.normSq_eq_conj_mul_self, map_mul]
    ring
  have hnorm : ∀ (v : C → ℂ) (z : ℂ), norm2 (fun s => z * v s) = Complex.normSq z * norm2 v := by
    intro v z
    unfold norm2
    rw [Finset.mul_sum]
    simp only [map_mul]
  set p := ∑ s, (starRingEnd ℂ) (φ s) * ψ s with hp
  obtain ⟨g, hg1, hg2⟩ : ∃ g : ℂ, ‖g‖ = 1 ∧ g * p = (‖p‖ : ℂ) := by
    by_cases hp0 : p = 0
    · exact ⟨1, by simp, by simp [hp0]⟩
    · refine ⟨(starRingEnd ℂ) p / (‖p‖ : ℂ), ?_, ?_⟩
      · rw [norm_div, RCLike.norm_conj, Complex.norm_real, norm_norm, div_self (norm_ne_zero_iff.mpr hp0)]
      · rw [div_mul_eq_mul_div, ← Complex.normSq_eq_conj_mul_self, Complex.normSq_eq_norm_sq]
        have : (‖p‖ : ℂ) ≠ 0 := by exact_mod_cast norm_ne_zero_iff.mpr hp0
        push_cast
        field_simp
  set a : ℂ := (((√(norm2 φ))⁻¹ : ℝ) : ℂ) with ha
  set b : ℂ := g * (((√(norm2 ψ))⁻¹ : ℝ) : ℂ) with hb
  have ha2 : Complex.normSq a = (norm2 φ)⁻¹ := by
    rw [ha, Complex.normSq_ofReal, ← mul_inv, Real.mul_self_sqrt hZφ.le]
  have hb2 : Complex.normSq b = (norm2 ψ)⁻¹ := by
    rw [hb, map_mul, Complex.normSq_ofReal, ← mul_inv, Real.mul_self_sqrt hZψ.le,
      Complex.normSq_eq_norm_sq, hg1]
    simp
  have h := key (fun s => a * φ s) (fun s => b * ψ s)
    (by rw [hnorm, ha2, inv_mul_cancel₀ hZφ.ne']) (by rw [hnorm, hb2, inv_mul_cancel₀ hZψ.ne'])
    ((√(norm2 φ))⁻¹ * (√(norm2 ψ))⁻¹ * ‖p‖) (by
      have : ∀ s, (starRingEnd ℂ) (a * φ s) * (b * ψ s)
          = (((√(norm2 φ))⁻¹ : ℝ) : ℂ) * (((√(norm2 ψ))⁻¹ : ℝ) : ℂ)
            * (g * ((starRingEnd ℂ) (φ s) * ψ s)) := by
        intro s
        rw [map_mul, ha, Complex.conj_ofReal, hb]
        ring
      simp only [this, ← Finset.mul_sum]
      rw [← hp, hg2]
      push_cast
      ring)
  rw [hscale, hscale, ha2, hb2] at h
  have e1 : ∀ v : C → ℂ, expect A v = ((norm2 v)⁻¹ : ℝ) * ∑ s, (starRingEnd ℂ) (v s) * (A *ᵥ v) s := by
    intro v
    unfold expect
    push_cast
    rw [div_eq_inv_mul]
  rw [e1, e1]
  refine h.trans (le_of_eq ?_)
  unfold stateDistance fidelity
  rw [mul_pow, mul_pow, inv_pow, inv_pow, Real.sq_sqrt hZφ.le, Real.sq_sqrt hZψ.le, ← hp,
    Complex.normSq_eq_norm_sq]
  congr 3
  field_simp

end states

section calls

variable {n : ℕ} {C : Type} [Fintype C] [DecidableEq C] {kernel : C → List (C × ℂ)} {O : Matrix C C ℂ}

/-- A call of a `TDVP` object with `intStep=0` for the parameters `θ`, with exactly weighted samples:
it returned the velocities `u`; afterwards `"tdvp_error"` in its metadata is `d` and `ElocVar0` is
`var`. Everything else (regularisation, real or imaginary parts, cross validation, earlier calls,
state of the network and the sampler, ranks) is arbitrary. -/
def TdvpReport (kernel : C → List (C × ℂ)) (O : Matrix C C ℂ) (logPsi : (Fin (n + 1) → ℝ) → C → ℂ)
    (x : ℂ) (θ u : Fin (n + 1) → ℝ) (d var : ℝ) : Prop :=
  ∃ (smp : Type) (env : TdvpEnv n smp) (cfg : TdvpCfg n) (r : ℕ) (time : ℝ) (sm sm' : smp)
    (at₀ at₁ : TdvpAttrs n) (st : NqsInit) (st' : NqsState) (p : Params)
    (grads : C → Fin (n + 1) → ℂ) (w : World (C × ℂ × ℝ)) (m : TdvpMeta n) (E : ℂ),
    cfg.rhsPrefactor = x ∧ paramUnflatten st.realParams st.sizes (List.ofFn θ) = .ok p ∧
    TdvpStep kernel O logPsi θ grads w ∧ r < List.length w ∧
    env.measure p sm time = .ok (tdvpJoint O (fun c => Complex.exp (logPsi θ c)) grads w, sm') ∧
    (tdvpCall env cfg r (List.ofFn θ) time (some 0) sm at₀).call (some st)
      = (.ok (some u, at₁, sm'), st') ∧
    at₁.metaData = some m ∧ m.tdvpError = some d ∧ at₁.eloc0 = some (some (E, var))

/-- The stored variance is that of the local energies, also with cross validation. -/
theorem call_variance {smp : Type} (env : TdvpEnv n smp) (cfg : TdvpCfg n) (r : ℕ)
    (netP : List ℝ) (t : ℝ) (sm sm' : smp) (at₀ at₁ : TdvpAttrs n) (st : NqsInit) (st' : NqsState)
    (u : Flt (Fin (n + 1) → ℝ)) (p : Params) (hp : paramUnflatten st.realParams st.sizes netP = .ok p)
    (joint : World (ℝ × (Fin 1 → ℂ) × (Fin (n + 1) → ℂ)))
    (hm : env.measure p sm t = .ok (joint, sm')) (h1 : ∀ rk ∈ joint, rk ≠ [])
    (h2 : ∀ s ∈ allSamples joint, 0 ≤ s.1) (h3 : r < List.length joint)
    (h : (tdvpCall env cfg r netP t (some 0) sm at₀).call (some st) = (.ok (u, at₁, sm'), st')) :
    at₁.eloc0 = some (some (wMean ((allSamples joint).map fun s => (s.1, s.2.1)) 0,
      wVar ((allSamples joint).map fun s => (s.1, s.2.1)) 0)) ∧
      (wVar ((allSamples joint).map fun s => (s.1, s.2.1)) 0 = 0 →
        ∃ m, at₁.metaData = some m ∧ m.tdvpError = none) := by
  obtain ⟨q, joint₂, E, G, res, atS, p', hq, hm₂, hd, hs, _, _, _, hz⟩ :=
    tdvpCall_ok env cfg r netP t (some 0) sm sm' at₀ at₁ st st' u h
  rw [hp] at hq
  obtain rfl := Except.ok.inj hq
  rw [hm] at hm₂
  obtain ⟨rfl, -⟩ := Prod.mk.inj (Except.ok.inj hm₂)
  have hi : TdvpInput joint r E G := ⟨h1, h2, h3, hd⟩
  obtain ⟨err, he, hf, ht⟩ := hz rfl
  obtain ⟨eq, e, sp, snr, heq, hsol⟩ := solve_attrs _ r _ at₀ atS res hs
  rw [hsol at₀] at hs
  have hA := (congrArg Prod.snd (Except.ok.inj hs)).symm
  dsimp only at hA
  have hspec := heq at₀
  rw [getTdvpEquation_eq cfg r joint hi.devices hi.weights hi.rank E G hi.data at₀] at hspec
  have hee : e = some (specEqn cfg (allSamples joint)) := by
    have := congrArg TdvpAttrs.eqn (congrArg Prod.snd (Except.ok.inj hspec))
    exact (Option.some.inj this).symm
  have hel : (atS.eqn.map fun e => e.map fun x => (x.elocMean, x.elocVar))
      = some (some (wMean ((allSamples joint).map fun s => (s.1, s.2.1)) 0,
        wVar ((allSamples joint).map fun s => (s.1, s.2.1)) 0)) := by
    rw [hA, hee]
    rfl
  have hnan : wVar ((allSamples joint).map fun s => (s.1, s.2.1)) 0 = 0 → err = none := by
    intro h0
    have he' := he
    unfold getTdvpError at he'
    simp only [hel] at he'
    rw [hA, hee] at he'
    simp only at he'
    cases hru : res.update with
    | none =>
      rw [hru] at he'
      exact (Except.ok.inj he').symm
    | some v =>
      rw [hru] at he'
      simp only at he'
      rw [if_pos h0] at he'
      exact (Except.ok.inj he').symm
  by_cases hcv : cfg.crossValidation = true
  · obtain ⟨res', atS', cv, hs', hu, ha⟩ := crossValidate_ok _ r E G _ _ at₁ u (ht hcv)
    have hs'' := hs'.symm.trans (hsol _)
    obtain ⟨-, hat⟩ := Prod.mk.inj (Except.ok.inj hs'')
    rw [ha, hat]
    exact ⟨hel, fun h0 => ⟨_, rfl, hnan h0⟩⟩
  · obtain ⟨hu, ha⟩ := hf (by simpa using hcv)
    rw [ha]
    exact ⟨hel, fun h0 => ⟨_, rfl, hnan h0⟩⟩

/-- What the reported numbers mean. -/
theorem report_distance [Nonempty C] {logPsi : (Fin (n + 1) → ℝ) → C → ℂ} {x : ℂ}
    (hx : Complex.normSq x = 1) {θ u : Fin (n + 1) → ℝ} {d var : ℝ}
    (h : TdvpReport kernel O logPsi x θ u d var) :
    offRay (fun c => Complex.exp (logPsi θ c)) (fun s => stateVelocity logPsi θ u s
      + x * (O *ᵥ fun c => Complex.exp (logPsi θ c)) s) = d * var ∧
      (∀ s, DifferentiableAt ℝ (fun p => logPsi p s) θ) ∧ O.IsHermitian := by
  obtain ⟨smp, env, cfg, r, time, sm, sm', at₀, at₁, st, st', p, grads, w, m, E, hpre, hp, hst, hr, hm,
    hcall, hmeta, herr, hel⟩ := h
  refine ⟨?_, hst.differentiable, hst.hermitian⟩
  set joint := tdvpJoint O (fun c => Complex.exp (logPsi θ c)) grads w with hj
  have h1 : ∀ rk ∈ joint, rk ≠ [] := World.map_ne _ _ hst.samples.devices
  have h2 : ∀ s ∈ allSamples joint, 0 ≤ s.1 := by
    intro s hs
    rw [hj] at hs
    unfold tdvpJoint at hs
    rw [allSamples_wmap] at hs
    obtain ⟨y, hy, rfl⟩ := List.mem_map.mp hs
    exact hst.nonneg y hy
  have h3 : r < List.length joint := by simpa [hj, tdvpJoint, World.map] using hr
  obtain ⟨hv, hnan⟩ := call_variance env cfg r _ time sm sm' at₀ at₁ st st' _ p hp joint hm h1 h2 h3 hcall
  rw [hel] at hv
  have hvar : var = wVar ((allSamples joint).map fun s => (s.1, s.2.1)) 0 :=
    congrArg Prod.snd (Option.some.inj (Option.some.inj hv))
  by_cases h0 : wVar ((allSamples joint).map fun s => (s.1, s.2.1)) 0 = 0
  · obtain ⟨m', hm', hd'⟩ := hnan h0
    rw [hmeta] at hm'
    obtain rfl := Option.some.inj hm'
    rw [herr] at hd'
    cases hd'
  · obtain ⟨m', hm', hd'⟩ := c46_metadata env cfg (by rw [hpre]; exact hx) r _ time sm sm' at₀ at₁ st st' u p
      hp joint hm h1 h2 h3 h0 hcall
    rw [hmeta] at hm'
    obtain rfl := Option.some.inj hm'
    rw [herr] at hd'
    rw [Option.some.inj hd', hvar, div_mul_cancel₀ _ h0, hpre, hj, distance_offRay hst]

/-- C97: let parameters move with TDVP velocities for real-time evolution (`rhsPrefactor=1j`), from
exactly weighted samples, whatever the regularisation. Then the distance of the variational state from
the exact solution `φ` of the Schrödinger equation grows at most at the rate
`√(tdvp_error * ElocVar0)`; `B` is an antiderivative of this rate. The Hamiltonian `H(t)` may depend on time:
the call at time `t` uses its branches `kernel t`. -/
theorem c97_real_time [Nonempty C] {kernel : ℝ → C → List (C × ℂ)} {H : ℝ → Matrix C C ℂ}
    (logPsi : (Fin (n + 1) → ℝ) → C → ℂ) {T : ℝ} (hT : 0 ≤ T)
    (θ u : ℝ → Fin (n + 1) → ℝ) (d var : ℝ → ℝ)
    (hθ : ∀ t ∈ Icc 0 T, HasDerivWithinAt θ (u t) (Icc 0 T) t)
    (hcall : ∀ t ∈ Icc 0 T, TdvpReport (kernel t) (H t) logPsi Complex.I (θ t) (u t) (d t) (var t))
    (B : ℝ → ℝ) (hB : ∀ t ∈ Icc 0 T, HasDerivWithinAt B (√(d t * var t)) (Icc 0 T) t)
    (φ : ℝ → C → ℂ) (hφ : Evolves H Complex.I φ T) (hφ0 : φ 0 ≠ 0) :
    stateDistance (φ T) (fun c => Complex.exp (logPsi (θ T) c))
      ≤ stateDistance (φ 0) (fun c => Complex.exp (logPsi (θ 0) c)) + (B T - B 0) := by
  obtain ⟨s₀⟩ := ‹Nonempty C›
  have hI : Complex.I = Complex.I * ((1 : ℝ) : ℂ) := by simp
  have hx : Complex.normSq Complex.I = 1 := by simp
  have hrep := fun t ht => report_distance hx (hcall t ht)
  have hO := fun t ht => (hrep t ht).2.2
  refine c97_distance 1 hT hO φ (fun t c => Complex.exp (logPsi (θ t) c))
    (fun t => stateVelocity logPsi (θ t) (u t)) (by rw [← hI]; exact hφ) hφ0 ?_ ?_
    (fun t => √(d t * var t)) B (fun t _ => Real.sqrt_nonneg _) hB ?_
  · intro t ht s
    have h2 := ((hrep t ht).2.1 s).hasFDerivAt
    have h3 := (h2.comp_hasDerivWithinAt t (hθ t ht)).cexp
    refine h3.congr_deriv ?_
    have h1 : HasDerivAt (fun τ : ℝ => θ t + τ • u t) (u t) 0 := by
      have := ((hasDerivAt_id (0 : ℝ)).smul_const (u t)).const_add (θ t)
      simpa using this
    have h2' : HasFDerivAt (fun p => logPsi p s) (fderiv ℝ (fun p => logPsi p s) (θ t))
        (θ t + (0 : ℝ) • u t) := by
      rw [zero_smul, add_zero]
      exact h2
    have h4 := (h2'.comp_hasDerivAt (0 : ℝ) h1).cexp
    have h5 : deriv (fun τ : ℝ => Complex.exp (logPsi (θ t + τ • u t) s)) 0 = _ := h4.deriv
    unfold stateVelocity
    rw [h5]
    simp
  · intro t _ h0
    exact Complex.exp_ne_zero _ (congrFun h0 s₀)
  · intro t ht
    have h1 := (hrep t ht).1
    have h2 : 0 ≤ d t * var t := by
      rw [← h1]
      unfold offRay norm2
      exact div_nonneg (Finset.sum_nonneg fun _ _ => Complex.normSq_nonneg _)
        (Finset.sum_nonneg fun _ _ => Complex.normSq_nonneg _)
    rw [Real.sq_sqrt h2, ← h1, Complex.ofReal_one, mul_one]

/-- C97, in particular: if the errors reported along the trajectory vanish, the variational state is
the exact one, up to norm and phase. -/
theorem c97_exact [Nonempty C] {kernel : ℝ → C → List (C × ℂ)} {H : ℝ → Matrix C C ℂ}
    (logPsi : (Fin (n + 1) → ℝ) → C → ℂ) {T : ℝ} (hT : 0 ≤ T)
    (θ u : ℝ → Fin (n + 1) → ℝ) (var : ℝ → ℝ)
    (hθ : ∀ t ∈ Icc 0 T, HasDerivWithinAt θ (u t) (Icc 0 T) t)
    (hcall : ∀ t ∈ Icc 0 T, TdvpReport (kernel t) (H t) logPsi Complex.I (θ t) (u t) 0 (var t))
    (φ : ℝ → C → ℂ) (hφ : Evolves H Complex.I φ T)
    (h0 : φ 0 = fun c => Complex.exp (logPsi (θ 0) c)) :
    ∃ c : ℂ, φ T = fun s => c * Complex.exp (logPsi (θ T) s) := by
  have hne : ∀ θ : Fin (n + 1) → ℝ, (fun c => Complex.exp (logPsi θ c)) ≠ 0 := by
    obtain ⟨s₀⟩ := ‹Nonempty C›
    exact fun θ h => Complex.exp_ne_zero _ (congrFun h s₀)
  have hφ0 : φ 0 ≠ 0 := h0 ▸ hne _
  have hO := fun t ht => (report_distance (by simp) (hcall t ht)).2.2
  have h := c97_real_time logPsi hT θ u (fun _ => 0) var hθ hcall (fun _ => 0)
    (fun t _ => by simpa using hasDerivWithinAt_const t (Icc 0 T) (0 : ℝ)) φ hφ hφ0
  rw [h0, distance_self _ (hne _), sub_zero, add_zero] at h
  exact distance_zero _ _ (evolves_ne 1 hO (by simpa using hφ) hφ0 T (right_mem_Icc.mpr hT)) (hne _) h

/-- C97 for measurements: what `measure` reports at time `T` with exactly weighted samples deviates
from the expectation value in the exact state by at most twice the norm of the observable times the
distance above. -/
theorem c97_measure [Nonempty C] {kernel : ℝ → C → List (C × ℂ)} {H : ℝ → Matrix C C ℂ}
    (logPsi : (Fin (n + 1) → ℝ) → C → ℂ) {T : ℝ} (hT : 0 ≤ T)
    (θ u : ℝ → Fin (n + 1) → ℝ) (d var : ℝ → ℝ)
    (hθ : ∀ t ∈ Icc 0 T, HasDerivWithinAt θ (u t) (Icc 0 T) t)
    (hcall : ∀ t ∈ Icc 0 T, TdvpReport (kernel t) (H t) logPsi Complex.I (θ t) (u t) (d t) (var t))
    (B : ℝ → ℝ) (hB : ∀ t ∈ Icc 0 T, HasDerivWithinAt B (√(d t * var t)) (Icc 0 T) t)
    (φ : ℝ → C → ℂ) (hφ : Evolves H Complex.I φ T) (h0 : φ 0 = fun c => Complex.exp (logPsi (θ 0) c))
    (kernelA : C → List (C × ℂ)) (A : Matrix C C ℂ) (hA : OperatorOf kernelA A) (M : ℝ)
    (hM : NormAtMost A M) (zeroCfg : C) (b : ℤ) (num : Option ℕ) (w : World (C × ℂ × ℝ))
    (hw : SamplesOf (logPsi (θ T)) w)
    (hb : BornWeights (fun c => Complex.exp (logPsi (θ T) c)) (weighted w)) :
    ∃ res, measureOp kernelA ⟨logPsi (θ T), true⟩ zeroCfg b num w = .ok res ∧
      ∀ r ∈ res, |r.mean - (expect A (φ T)).re| ≤ 2 * M * (B T - B 0) := by
  obtain ⟨res, h1, -, h2⟩ := c77_mean hA ⟨logPsi (θ T), true⟩ rfl zeroCfg b num w hw hb
  refine ⟨res, h1, fun r hr => ?_⟩
  rw [h2 r hr, ← Complex.sub_re]
  have hne : ∀ θ : Fin (n + 1) → ℝ, (fun c => Complex.exp (logPsi θ c)) ≠ 0 := by
    obtain ⟨s₀⟩ := ‹Nonempty C›
    exact fun θ h => Complex.exp_ne_zero _ (congrFun h s₀)
  have hφ0 : φ 0 ≠ 0 := h0 ▸ hne _
  have hO := fun t ht => (report_distance (by simp) (hcall t ht)).2.2
  have hd := c97_real_time logPsi hT θ u d var hθ hcall B hB φ hφ hφ0
  rw [h0, distance_self _ (hne _), zero_add] at hd
  have he := c97_expect A M hM (φ T) (fun c => Complex.exp (logPsi (θ T) c))
    (evolves_ne 1 hO (by simpa using hφ) hφ0 T (right_mem_Icc.mpr hT)) (hne _)
  refine (Complex.abs_re_le_norm _).trans ?_
  rw [norm_sub_rev]
  refine he.trans (mul_le_mul_of_nonneg_left hd ?_)
  have := hM.1
  positivity

end calls

/-! ### A case: one spin in a field along `z`, precessing in the `x`-`y` plane -/

/-- `log ψ(s) = i θ (1 - 2 s)`. -/
noncomputable def phaseLog (θ : Fin 1 → ℝ) (s : Fin 2) : ℂ := Complex.I * θ 0 * (1 - 2 * (s.val : ℂ))

noncomputable def phaseKernel (s : Fin 2) : List (Fin 2 × ℂ) := [(s, 1 - 2 * (s.val : ℂ))]

noncomputable def phaseMatrix : Matrix (Fin 2) (Fin 2) ℂ := !![1, 0; 0, -1]

noncomputable def phaseWorld (θ : Fin 1 → ℝ) : World (Fin 2 × ℂ × ℝ) :=
  [[[(0, phaseLog θ 0, 1 / 2), (1, phaseLog θ 1, 1 / 2)]]]

noncomputable def phaseGrads (s : Fin 2) : Fin 1 → ℂ := ![Complex.I * (1 - 2 * (s.val : ℂ))]

noncomputable def phaseJoint : World (ℝ × (Fin 1 → ℂ) × (Fin 1 → ℂ)) :=
  [[[(1 / 2, ![1], ![Complex.I]), (1 / 2, ![-1], ![-Complex.I])]]]

noncomputable def phaseCfg : TdvpCfg 0 :=
  ⟨2, 1e-8, 1e-6, "real", Complex.I, 0, false, true, 2, someEigh⟩

theorem phase_normSq (θ : Fin 1 → ℝ) (s : Fin 2) : Complex.normSq (Complex.exp (phaseLog θ s)) = 1 := by
  rw [Complex.normSq_eq_norm_sq, Complex.norm_exp]
  have : (phaseLog θ s).re = 0 := by
    fin_cases s <;> simp [phaseLog]
  rw [this]
  simp

noncomputable def phaseLinear (s : Fin 2) : (Fin 1 → ℝ) →ₗ[ℝ] ℂ where
  toFun p := phaseLog p s
  map_add' p q := by simp [phaseLog]; ring
  map_smul' a p := by simp [phaseLog]; ring

theorem phase_operator : OperatorOf phaseKernel phaseMatrix := by
  refine ⟨?_, ⟨1, fun _ => rfl⟩, ?_⟩
  · intro s s'
    fin_cases s <;> fin_cases s' <;> norm_num [phaseKernel, phaseMatrix, elementOf]
  · intro s e he
    right
    fin_cases s <;> simp [phaseKernel] at he <;> subst he <;> norm_num

theorem phase_weights (θ : Fin 1 → ℝ) :
    BornWeights (fun c => Complex.exp (phaseLog θ c)) (weighted (phaseWorld θ)) := by
  have h : weighted (phaseWorld θ) = [(1 / 2, 0), (1 / 2, 1)] := rfl
  rw [h]
  constructor
  · simp
  · intro s
    rw [phase_normSq]
    unfold norm2
    simp only [phase_normSq]
    fin_cases s <;> simp [weightOf]

theorem phase_step (θ : Fin 1 → ℝ) :
    TdvpStep phaseKernel phaseMatrix phaseLog θ phaseGrads (phaseWorld θ) := by
  have hf : ∀ s : Fin 2, HasFDerivAt (fun p => phaseLog p s)
      (LinearMap.toContinuousLinearMap (phaseLinear s)) θ := fun s =>
    (LinearMap.toContinuousLinearMap (phaseLinear s)).hasFDerivAt
  refine ⟨phase_operator, ?_, fun s => (hf s).differentiableAt, ?_, ?_, phase_weights θ⟩
  · ext i j
    fin_cases i <;> fin_cases j <;> simp [phaseMatrix, Matrix.conjTranspose_apply]
  · intro s k
    rw [(hf s).fderiv]
    change _ = phaseLog (Pi.single k 1) s
    fin_cases k
    simp [phaseLog, phaseGrads]
  · refine ⟨?_, ?_, ?_⟩ <;> simp [phaseWorld, allSamples]

theorem phase_joint (θ : Fin 1 → ℝ) :
    tdvpJoint phaseMatrix (fun c => Complex.exp (phaseLog θ c)) phaseGrads (phaseWorld θ) = phaseJoint := by
  have h : ∀ s : Fin 2, localValue phaseMatrix (fun c => Complex.exp (phaseLog θ c)) s
      = 1 - 2 * (s.val : ℂ) := by
    intro s
    have h0 : ∀ s : Fin 2, Complex.exp (phaseLog θ s) ≠ 0 := fun s => Complex.exp_ne_zero _
    have h00 := h0 0
    have h01 := h0 1
    unfold localValue phaseMatrix Matrix.mulVec dotProduct
    fin_cases s
    · simp [Fin.sum_univ_two, h00]
    · simp [Fin.sum_univ_two, h01]
      norm_num
  unfold tdvpJoint phaseWorld phaseJoint
  simp only [World.map, List.map_cons, List.map_nil, h]
  congr 3
  · congr 2
    · funext i
      fin_cases i
      simp
    · simp [phaseGrads]
  · congr 2
    congr 1
    · funext i
      fin_cases i
      norm_num
    · simp [phaseGrads]
      ring

theorem phaseSamples : allSamples phaseJoint
    = [(1 / 2, ![1], ![Complex.I]), (1 / 2, ![-1], ![-Complex.I])] := rfl

theorem phase_input : ∃ E G, TdvpInput phaseJoint 0 E G := by
  refine tdvpInput_exists _ _ ?_ ?_ ?_
  · simp [phaseJoint]
  · intro s hs
    rw [phaseSamples] at hs
    simp only [List.mem_cons, List.not_mem_nil, or_false] at hs
    rcases hs with rfl | rfl <;> norm_num
  · simp [phaseJoint]

theorem phaseQS : specQS phaseCfg (allSamples phaseJoint) = Matrix.of fun _ _ => (1 : ℂ) := by
  unfold specQS
  rw [if_neg (by norm_num [phaseCfg])]
  ext i j
  have hi : i = 0 := Fin.fin_one_eq_zero i
  have hj : j = 0 := Fin.fin_one_eq_zero j
  subst hi hj
  simp [specS, wCross, phaseSamples, wMean, TdvpCfg.q, phaseCfg]
  norm_num

theorem phaseQF : specQF phaseCfg (allSamples phaseJoint) = fun _ => (-1 : ℂ) := by
  funext i
  have hi : i = 0 := Fin.fin_one_eq_zero i
  subst hi
  simp [specQF, specF, wCross, phaseSamples, wMean, TdvpCfg.q, phaseCfg]
  norm_num

/-- `solve` returns a velocity. -/
theorem phase_solve : ∃ E G res at₁ u, TdvpInput phaseJoint 0 E G ∧
    tdvpSolve phaseCfg 0 (some (E, G)) {} = .ok (res, at₁) ∧ res.update = some u := by
  obtain ⟨E, G, hi⟩ := phase_input
  have heq := getTdvpEquation_eq phaseCfg 0 phaseJoint hi.devices hi.weights hi.rank E G hi.data {}
  rw [phaseQS, phaseQF] at heq
  have hE : EighCorrect phaseCfg := someEigh_correct _ rfl
  obtain ⟨res, at₁, hres⟩ := c45_returns_partial phaseCfg (by norm_num [phaseCfg])
    (by norm_num [phaseCfg]) (by norm_num [phaseCfg]) 0 phaseJoint E G hi {}
  have hH : (Matrix.of fun _ _ => (1 : ℂ) : Matrix (Fin 1) (Fin 1) ℂ).IsHermitian := by
    ext i j
    simp [Matrix.conjTranspose_apply]
  have hev : (phaseCfg.eigh (Matrix.of fun _ _ => (1 : ℂ))).1 (Fin.last 0) ≠ 0 := by
    have h := hE _ hH
    intro h0
    have h1 := congrFun (congrFun h.decomp 0) 0
    have h2 := congrFun (congrFun h.unitary 0) 0
    rw [Matrix.mul_diagonal] at h1
    change (phaseCfg.eigh (Matrix.of fun _ _ => (1 : ℂ))).1 0 = 0 at h0
    rw [h0] at h1
    simp [Matrix.mul_apply] at h1 h2
    rw [h1] at h2
    simp at h2
  obtain ⟨ev, V, hVe⟩ : ∃ ev V, phaseCfg.eigh (Matrix.of fun _ _ => (1 : ℂ)) = (ev, V) := ⟨_, _, rfl⟩
  rw [hVe] at hev
  obtain ⟨u, hu, -⟩ := c88_exact_velocity phaseCfg hE (by norm_num [phaseCfg]) 0 phaseJoint E G hi {} at₁
    _ _ _ heq res hres ev V hVe hev (by norm_num [phaseCfg]) 1 1 (by norm_num)
    (fun k => by
      have : k = Fin.last 0 := Fin.fin_one_eq_zero k
      rw [this, div_self (abs_ne_zero.mpr hev)]) zero_le_one le_rfl (fun _ => 1) (Or.inl rfl) (fun _ => -1)
    (by
      rw [phaseSamples]
      simp [tdvpDistance, wMean, phaseCfg])
  exact ⟨E, G, res, at₁, u, hi, hres, hu⟩

/-- The calls return, at all parameters with the same velocity and the same reported error. -/
theorem phase_report_of {E G res at₁ u} (hi : TdvpInput phaseJoint 0 E G)
    (hres : tdvpSolve phaseCfg 0 (some (E, G)) {} = .ok (res, at₁)) (hu : res.update = some u) :
    ∃ d var, ∀ θ : Fin 1 → ℝ, TdvpReport phaseKernel phaseMatrix phaseLog Complex.I θ u d var := by
  refine ⟨tdvpDistance (allSamples phaseJoint) Complex.I u
      / wVar ((allSamples phaseJoint).map fun s => (s.1, s.2.1)) 0,
    wVar ((allSamples phaseJoint).map fun s => (s.1, s.2.1)) 0, fun θ => ?_⟩
  have hp : paramUnflatten (Params.real [[(0 : ℝ)]]).isReal (Params.real [[(0 : ℝ)]]).sizes (List.ofFn θ)
      = .ok (.real [[θ 0]]) := by
    have := flattenParams_unflatten (.real [[θ 0]])
    simpa [flattenParams, Params.isReal, Params.sizes] using this
  let env : TdvpEnv 0 Unit := ⟨fun _ _ _ => .ok (phaseJoint, ())⟩
  have hinit : nqsRun (.real [[0]]) [.eval] ≠ none :=
    (c25_initialised_iff _ _).mpr ⟨.eval, List.mem_singleton_self _, rfl⟩
  obtain ⟨u', at₁, hc⟩ := c44_returns env phaseCfg (by norm_num [phaseCfg]) (by norm_num [phaseCfg])
    (by norm_num [phaseCfg]) 0 (List.ofFn θ) 0 (some 0) () () {} (.real [[0]]) [.eval]
    (by simp [NqsOp.Fits]) hinit _ hp phaseJoint rfl hi.devices hi.weights hi.rank
  obtain ⟨st, hst⟩ := Option.ne_none_iff_exists'.mp hinit
  have hw := wf_run _ _ (by simp [NqsOp.Fits]) st hst
  rw [hst] at hc
  have hp' : paramUnflatten st.realParams st.sizes (List.ofFn θ) = .ok (.real [[θ 0]]) := by
    rw [hw.1, hw.2.1]
    exact hp
  have huu : u' = some u := by
    obtain ⟨q, joint₂, E', G', res', atS', p', -, hm₂, hd, hs, -, -, -, hz⟩ :=
      tdvpCall_ok env phaseCfg 0 (List.ofFn θ) 0 (some 0) () () {} at₁ st (some st) u' hc
    obtain ⟨rfl, -⟩ := Prod.mk.inj (Except.ok.inj hm₂)
    obtain ⟨err, -, hf, -⟩ := hz rfl
    have h1 := hi.data
    obtain rfl : E' = E := Except.ok.inj (hd.1.symm.trans h1.1)
    obtain rfl : G' = G := Except.ok.inj (hd.2.symm.trans h1.2)
    rw [hres] at hs
    obtain ⟨rfl, -⟩ := Prod.mk.inj (Except.ok.inj hs)
    rw [(hf rfl).1, hu]
  rw [huu] at hc
  have hv := call_variance env phaseCfg 0 (List.ofFn θ) 0 () () {} at₁ st (some st) _ _ hp' phaseJoint rfl
    hi.devices hi.weights hi.rank hc
  have hvar : wVar ((allSamples phaseJoint).map fun s => (s.1, s.2.1)) 0 ≠ 0 := by
    rw [phaseSamples]
    norm_num [wVar, wMean]
  obtain ⟨m, hm1, hm2⟩ := c46_metadata env phaseCfg (by simp [phaseCfg]) 0 (List.ofFn θ) 0 () () {} at₁ st
    (some st) u _ hp' phaseJoint rfl hi.devices hi.weights hi.rank hvar hc
  exact ⟨Unit, env, phaseCfg, 0, 0, (), (), {}, at₁, st, some st, _, phaseGrads, phaseWorld θ, m, _, rfl, hp',
    phase_step θ, by simp [phaseWorld], by rw [phase_joint], hc, hm1, hm2, hv.1⟩

theorem phase_report : ∃ u d var, ∀ θ : Fin 1 → ℝ,
    TdvpReport phaseKernel phaseMatrix phaseLog Complex.I θ u d var := by
  obtain ⟨E, G, res, atS, u, hi, hres, hu⟩ := phase_solve
  exact ⟨u, phase_report_of hi hres hu⟩

/-- The exact dynamics of the spin. -/
theorem phase_evolves (T : ℝ) :
    Evolves (fun _ => phaseMatrix) Complex.I (fun t s => Complex.exp (-(Complex.I * t * (1 - 2 * (s.val : ℂ))))) T := by
  intro t _ s
  have h1 : HasDerivAt (fun τ : ℝ => -(Complex.I * (τ : ℂ) * (1 - 2 * (s.val : ℂ))))
      (-(Complex.I * 1 * (1 - 2 * (s.val : ℂ)))) t :=
    (((HasDerivAt.ofReal_comp (hasDerivAt_id t)).const_mul Complex.I).mul_const _).neg
  refine (h1.cexp.congr_deriv ?_).hasDerivWithinAt
  unfold phaseMatrix Matrix.mulVec dotProduct
  fin_cases s <;> simp [Fin.sum_univ_two] <;> ring_nf

/-- Case for `c97_real_time` and `c97_measure`: the trajectory that follows the returned velocities and
the exact dynamics, both starting from the same state, with the accumulated error. -/
example (T : ℝ) (hT : 0 ≤ T) : ∃ (u : Fin 1 → ℝ) (d var : ℝ),
    (∀ t ∈ Icc 0 T, TdvpReport phaseKernel phaseMatrix phaseLog Complex.I (t • u) u d var) ∧
    stateDistance (fun s => Complex.exp (-(Complex.I * T * (1 - 2 * (s.val : ℂ)))))
      (fun c => Complex.exp (phaseLog (T • u) c)) ≤ T * √(d * var) := by
  obtain ⟨u, d, var, h⟩ := phase_report
  refine ⟨u, d, var, fun t _ => h _, ?_⟩
  have := c97_real_time phaseLog hT (fun t => t • u) (fun _ => u) (fun _ => d) (fun _ => var)
    (fun t _ => by simpa using ((hasDerivAt_id t).smul_const u).hasDerivWithinAt) (fun t _ => h _)
    (fun t => t * √(d * var))
    (fun t _ => by simpa using ((hasDerivAt_id t).mul_const (√(d * var))).hasDerivWithinAt)
    _ (phase_evolves T) (fun h0 => Complex.exp_ne_zero _ (congrFun h0 0))
  have h0 : stateDistance (fun s : Fin 2 => Complex.exp (-(Complex.I * (0 : ℝ) * (1 - 2 * (s.val : ℂ)))))
      (fun c => Complex.exp (phaseLog ((0 : ℝ) • u) c)) = 0 := by
    have h1 : (fun s : Fin 2 => Complex.exp (-(Complex.I * (0 : ℝ) * (1 - 2 * (s.val : ℂ)))))
        = fun c => Complex.exp (phaseLog ((0 : ℝ) • u) c) := by
      funext s
      simp [phaseLog]
    rw [h1]
    exact distance_self _ (fun h0 => Complex.exp_ne_zero _ (congrFun h0 0))
  rw [h0] at this
  linarith

/-- Case for `c97_expect`: the expectation value of `σ_x`. -/
example : NormAtMost (!![0, 1; 1, 0] : Matrix (Fin 2) (Fin 2) ℂ) 1 := by
  refine ⟨zero_le_one, fun v => ?_⟩
  simp [norm2, Matrix.mulVec, dotProduct, Fin.sum_univ_two, add_comm]

end JVMC

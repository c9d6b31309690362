import Mathlib.Analysis.Normed.Module.FiniteDimension
import Verif.Lemmas.Runs
import Verif.Props.SampledTdvp

/-!
# Lemmas for C108: energies along straight steps of the parameters
-/

namespace JVMC

open Spec Set Matrix

section abstract

variable {E : Type} [NormedAddCommGroup E] [InnerProductSpace ℂ E]

/-- The derivative of an expectation value along a curve. -/
theorem expect_deriv {v w : ℝ → E} {dt : ℝ} (A : E →L[ℂ] E) (hA : ∀ x y, inner ℂ (A x) y = inner ℂ x (A y))
    {t : ℝ} (hv : HasDerivWithinAt v (w t) (Icc 0 dt) t) :
    HasDerivWithinAt (fun t => (inner ℂ (v t) (A (v t))).re) (2 * (inner ℂ (w t) (A (v t))).re) (Icc 0 dt) t := by
  have a1 : HasDerivWithinAt (fun t => A (v t)) (A (w t)) (Icc 0 dt) t :=
    (A.restrictScalars ℝ).hasFDerivAt.comp_hasDerivWithinAt t hv
  have a2 := hv.inner ℂ a1
  have a3 := (Complex.reCLM.hasFDerivAt).comp_hasDerivWithinAt t a2
  refine a3.congr_deriv ?_
  have e : (inner ℂ (v t) (A (w t))).re = (inner ℂ (w t) (A (v t))).re := by
    rw [← hA, ← inner_conj_symm, Complex.conj_re]
  simp only [Complex.reCLM_apply, Complex.add_re, e]
  ring

/-- Expectation values along a curve of unit vectors, up to second order. -/
theorem expect_second_order {v w : ℝ → E} {dt g q M : ℝ} (hdt : 0 ≤ dt) (A : E →L[ℂ] E)
    (hA : ∀ x y, inner ℂ (A x) y = inner ℂ x (A y)) (hM : ∀ x, ‖A x‖ ≤ M * ‖x‖) (hM0 : 0 ≤ M)
    (hv : ∀ t ∈ Icc 0 dt, HasDerivWithinAt v (w t) (Icc 0 dt) t) (h1 : ∀ t ∈ Icc 0 dt, ‖v t‖ = 1)
    (hg : ‖w 0‖ ≤ g) (hvv : ∀ t ∈ Icc 0 dt, ‖v t - v 0‖ ≤ g * t) (hww : ∀ t ∈ Icc 0 dt, ‖w t - w 0‖ ≤ q * t) :
    |(inner ℂ (v dt) (A (v dt))).re - (inner ℂ (v 0) (A (v 0))).re - dt * (2 * (inner ℂ (w 0) (A (v 0))).re)|
      ≤ dt ^ 2 * (M * (q + g ^ 2)) := by
  set f : ℝ → ℝ := fun t => (inner ℂ (v t) (A (v t))).re - (inner ℂ (v 0) (A (v 0))).re
    - t * (2 * (inner ℂ (w 0) (A (v 0))).re) with hf
  set f' : ℝ → ℝ := fun t => 2 * (inner ℂ (w t) (A (v t))).re - 2 * (inner ℂ (w 0) (A (v 0))).re with hf'
  have hd : ∀ t ∈ Icc 0 dt, HasDerivWithinAt f (f' t) (Icc 0 dt) t := by
    intro t ht
    have a4 := ((expect_deriv A hA (hv t ht)).sub_const (inner ℂ (v 0) (A (v 0))).re).sub
      ((hasDerivAt_id t).mul_const (2 * (inner ℂ (w 0) (A (v 0))).re)).hasDerivWithinAt
    refine a4.congr_deriv ?_
    simp only [hf', one_mul]
  have hb : ∀ t ∈ Icc 0 dt, ‖f' t‖ ≤ 2 * (M * (q + g ^ 2)) * t := by
    intro t ht
    have hg0 : 0 ≤ g := (norm_nonneg _).trans hg
    have e : inner ℂ (w t) (A (v t)) - inner ℂ (w 0) (A (v 0))
        = inner ℂ (w t - w 0) (A (v t)) + inner ℂ (w 0) (A (v t - v 0)) := by
      rw [map_sub, inner_sub_left, inner_sub_right]
      ring
    have b1 : ‖inner ℂ (w t) (A (v t)) - inner ℂ (w 0) (A (v 0))‖ ≤ q * t * M + g * (M * (g * t)) := by
      rw [e]
      refine (norm_add_le _ _).trans (add_le_add ?_ ?_)
      · refine (norm_inner_le_norm _ _).trans (mul_le_mul (hww t ht) ?_ (norm_nonneg _) ?_)
        · have := hM (v t)
          rwa [h1 t ht, mul_one] at this
        · exact (norm_nonneg _).trans (hww t ht)
      · refine (norm_inner_le_norm _ _).trans (mul_le_mul hg ?_ (norm_nonneg _) hg0)
        exact (hM _).trans (mul_le_mul_of_nonneg_left (hvv t ht) hM0)
    have b2 : f' t = 2 * (inner ℂ (w t) (A (v t)) - inner ℂ (w 0) (A (v 0))).re := by
      simp only [hf', Complex.sub_re]
      ring
    rw [b2, Real.norm_eq_abs, abs_mul, abs_two]
    have b3 := (Complex.abs_re_le_norm _).trans b1
    calc 2 * |(inner ℂ (w t) (A (v t)) - inner ℂ (w 0) (A (v 0))).re| ≤ 2 * (q * t * M + g * (M * (g * t))) := by
          linarith
      _ = _ := by ring
  have key := image_norm_le_of_norm_deriv_right_le_deriv_boundary (f := f) (f' := f') (a := 0) (b := dt)
    (fun t ht => (hd t ht).continuousWithinAt)
    (fun t ht => (hd t ⟨ht.1, ht.2.le⟩).mono_of_mem_nhdsWithin (Icc_mem_nhdsGE_of_mem ht))
    (B := fun t => t ^ 2 * (M * (q + g ^ 2))) (B' := fun t => 2 * (M * (q + g ^ 2)) * t) (by simp [hf])
    (fun t => by
      refine ((hasDerivAt_pow 2 t).mul_const (M * (q + g ^ 2))).congr_deriv ?_
      simp
      ring) (fun t ht => hb t ⟨ht.1, ht.2.le⟩) ⟨hdt, le_rfl⟩
  exact key

/-- The derivative of the normalised state. -/
theorem unit_deriv {ψ : ℝ → E} {dt t : ℝ} (o : E →ₗ[ℂ] E) (hψ : HasDerivWithinAt ψ (o (ψ t)) (Icc 0 dt) t)
    (hne : ψ t ≠ 0) :
    HasDerivWithinAt (fun t => ‖ψ t‖⁻¹ • ψ t) (o (‖ψ t‖⁻¹ • ψ t)
      - (inner ℂ (‖ψ t‖⁻¹ • ψ t) (o (‖ψ t‖⁻¹ • ψ t))).re • (‖ψ t‖⁻¹ • ψ t)) (Icc 0 dt) t := by
  let _ : InnerProductSpace ℝ E := InnerProductSpace.rclikeToReal ℂ E
  have hp := norm_pos_iff.mpr hne
  have h1 : HasDerivWithinAt (fun t => ‖ψ t‖ ^ 2) (2 * inner ℝ (ψ t) (o (ψ t))) (Icc 0 dt) t := hψ.norm_sq
  have h2 := h1.sqrt (by positivity)
  have e : (fun t => √(‖ψ t‖ ^ 2)) = fun t => ‖ψ t‖ := by
    funext t
    exact Real.sqrt_sq (norm_nonneg _)
  rw [e, Real.sqrt_sq hp.le] at h2
  have h3 := (h2.fun_inv hp.ne').smul hψ
  refine h3.congr_deriv ?_
  have hr : ∀ (c : ℝ) (x : E), c • x = (c : ℂ) • x := fun c x => by simp
  have e1 : (inner ℂ (‖ψ t‖⁻¹ • ψ t) (o (‖ψ t‖⁻¹ • ψ t))).re = ‖ψ t‖⁻¹ ^ 2 * (inner ℂ (ψ t) (o (ψ t))).re := by
    rw [hr, map_smul, inner_smul_left, inner_smul_right, Complex.conj_ofReal, ← mul_assoc, ← Complex.ofReal_mul,
      Complex.re_ofReal_mul]
    ring
  have e2 : (inner ℝ (ψ t) (o (ψ t)) : ℝ) = (inner ℂ (ψ t) (o (ψ t))).re := rfl
  have e3 : o (‖ψ t‖⁻¹ • ψ t) = ‖ψ t‖⁻¹ • o (ψ t) := by rw [hr, map_smul, ← hr]
  rw [e1, e2, e3, smul_smul, sub_eq_add_neg, ← neg_smul]
  congr 2
  field_simp

/-- The normalised state moves at most as fast as the state itself. -/
theorem unit_deriv_le {v ov : E} {g : ℝ} (hv : ‖v‖ = 1) (ho : ‖ov‖ ≤ g) :
    ‖ov - (inner ℂ v ov).re • v‖ ≤ g := by
  refine le_trans ?_ ho
  let _ : InnerProductSpace ℝ E := InnerProductSpace.rclikeToReal ℂ E
  have e2 : (inner ℂ v ov).re = (inner ℝ v ov : ℝ) := rfl
  rw [← sq_le_sq₀ (norm_nonneg _) (norm_nonneg _), e2, norm_sub_sq_real, inner_smul_right, norm_smul, mul_pow,
    real_inner_comm v ov, Real.norm_eq_abs, sq_abs, hv]
  nlinarith [sq_nonneg (inner ℝ v ov : ℝ)]

/-- How the derivative of the normalised state changes. -/
theorem unit_velocity {v v₀ : E} {o o₀ : E →ₗ[ℂ] E} {g q t : ℝ} (hg : 0 ≤ g) (hv : ‖v‖ = 1) (hv₀ : ‖v₀‖ = 1)
    (ho : ∀ x, ‖o x - o₀ x‖ ≤ q * t * ‖x‖) (ho₀ : ∀ x, ‖o₀ x‖ ≤ g * ‖x‖) (hm : ‖v - v₀‖ ≤ g * t) :
    ‖(o v - (inner ℂ v (o v)).re • v) - (o₀ v₀ - (inner ℂ v₀ (o₀ v₀)).re • v₀)‖ ≤ (2 * q + 4 * g ^ 2) * t := by
  have hov₀ : ‖o₀ v₀‖ ≤ g := by simpa [hv₀] using ho₀ v₀
  have h1 : ‖o v - o₀ v₀‖ ≤ (q + g ^ 2) * t := by
    have e : o v - o₀ v₀ = (o v - o₀ v) + o₀ (v - v₀) := by rw [map_sub]; abel
    rw [e]
    have a1 := ho v
    rw [hv, mul_one] at a1
    have a2 := (ho₀ (v - v₀)).trans (mul_le_mul_of_nonneg_left hm hg)
    calc _ ≤ q * t + g * (g * t) := (norm_add_le _ _).trans (add_le_add a1 a2)
      _ = _ := by ring
  have h2 : |(inner ℂ v (o v)).re - (inner ℂ v₀ (o₀ v₀)).re| ≤ (q + 2 * g ^ 2) * t := by
    rw [← Complex.sub_re]
    refine (Complex.abs_re_le_norm _).trans ?_
    have e : inner ℂ v (o v) - inner ℂ v₀ (o₀ v₀) = inner ℂ v (o v - o₀ v₀) + inner ℂ (v - v₀) (o₀ v₀) := by
      rw [inner_sub_right, inner_sub_left]
      ring
    rw [e]
    have a1 := (norm_inner_le_norm (𝕜 := ℂ) v (o v - o₀ v₀)).trans (show ‖v‖ * _ ≤ (q + g ^ 2) * t by rw [hv, one_mul]; exact h1)
    have a2 := (norm_inner_le_norm (𝕜 := ℂ) (v - v₀) (o₀ v₀)).trans
      (mul_le_mul hm hov₀ (norm_nonneg _) ((norm_nonneg _).trans hm))
    calc _ ≤ (q + g ^ 2) * t + g * t * g := (norm_add_le _ _).trans (add_le_add a1 a2)
      _ = _ := by ring
  have h3 : |(inner ℂ v₀ (o₀ v₀)).re| ≤ g := by
    refine (Complex.abs_re_le_norm _).trans ((norm_inner_le_norm _ _).trans ?_)
    rw [hv₀, one_mul]
    exact hov₀
  have e : (o v - (inner ℂ v (o v)).re • v) - (o₀ v₀ - (inner ℂ v₀ (o₀ v₀)).re • v₀)
      = (o v - o₀ v₀) - (((inner ℂ v (o v)).re - (inner ℂ v₀ (o₀ v₀)).re) • v
        + (inner ℂ v₀ (o₀ v₀)).re • (v - v₀)) := by
    rw [sub_smul, smul_sub]
    abel
  rw [e]
  have a1 : ‖((inner ℂ v (o v)).re - (inner ℂ v₀ (o₀ v₀)).re) • v‖ ≤ (q + 2 * g ^ 2) * t := by
    rw [norm_smul, hv, mul_one]
    exact h2
  have a2 : ‖(inner ℂ v₀ (o₀ v₀)).re • (v - v₀)‖ ≤ g * (g * t) := by
    rw [norm_smul]
    exact mul_le_mul h3 hm (norm_nonneg _) hg
  calc _ ≤ (q + g ^ 2) * t + ((q + 2 * g ^ 2) * t + g * (g * t)) :=
        (norm_sub_le _ _).trans (add_le_add h1 ((norm_add_le _ _).trans (add_le_add a1 a2)))
    _ = _ := by ring

end abstract

section states

variable {C : Type} [Fintype C]

/-- A matrix on the Hilbert space. -/
noncomputable def matE (A : Matrix C C ℂ) : EuclideanSpace ℂ C →L[ℂ] EuclideanSpace ℂ C :=
  LinearMap.toContinuousLinearMap
    { toFun := fun v => toE (A *ᵥ v.ofLp)
      map_add' := fun v w => by
        ext s
        simp [toE, mulVec_add]
      map_smul' := fun c v => by
        ext s
        simp [toE, mulVec_smul] }

theorem matE_apply (A : Matrix C C ℂ) (ψ : C → ℂ) : matE A (toE ψ) = toE (A *ᵥ ψ) := rfl

theorem matE_symm {A : Matrix C C ℂ} (hA : A.IsHermitian) (x y : EuclideanSpace ℂ C) :
    inner ℂ (matE A x) y = inner ℂ x (matE A y) := by
  have h := genE_skew hA 1 x y
  have e : ∀ z : EuclideanSpace ℂ C, genE A (Complex.I * (1 : ℝ)) z = (-Complex.I) • matE A z := by
    intro z
    ext s
    simp [genE, matE, toE]
  rw [e, e, inner_smul_left, inner_smul_right] at h
  simp only [map_neg, Complex.conj_I, neg_neg, neg_mul] at h
  exact mul_left_cancel₀ Complex.I_ne_zero h

theorem matE_le {A : Matrix C C ℂ} {M : ℝ} (h : NormAtMost A M) (x : EuclideanSpace ℂ C) :
    ‖matE A x‖ ≤ M * ‖x‖ := by
  rw [← sq_le_sq₀ (norm_nonneg _) (mul_nonneg h.1 (norm_nonneg _)), mul_pow]
  have := h.2 x.ofLp
  rw [← toE_norm, ← toE_norm] at this
  exact this

/-- Expectation values with normalised states. -/
theorem expect_unit (A : Matrix C C ℂ) (ψ : C → ℂ) (hψ : ψ ≠ 0) :
    Spec.expect A ψ = inner ℂ (‖toE ψ‖⁻¹ • toE ψ) (matE A (‖toE ψ‖⁻¹ • toE ψ)) := by
  have hp := norm_pos_iff.mpr (toE_ne ψ hψ)
  have e : ∀ (c : ℝ) (x : EuclideanSpace ℂ C), c • x = (c : ℂ) • x := fun c x => by simp
  rw [e, map_smul, inner_smul_left, inner_smul_right, matE_apply, toE_inner]
  unfold Spec.expect
  rw [← toE_norm, Complex.conj_ofReal]
  have : ((‖toE ψ‖ : ℝ) : ℂ) ≠ 0 := by exact_mod_cast hp.ne'
  push_cast
  field_simp

end states

section steps

variable {n : ℕ} {C : Type} [Fintype C] {logPsi : (Fin n → ℝ) → C → ℂ} {D : Set (Fin n → ℝ)} {G Λ : ℝ}

/-- The energy after a straight step, up to second order. -/
theorem energy_step [Nonempty C] (hs : SmoothOn logPsi D G Λ) (hD : Convex ℝ D) {O : Matrix C C ℂ}
    (hO : O.IsHermitian) {M : ℝ} (hM : NormAtMost O M) {dt : ℝ} (hdt : 0 ≤ dt) {θ u : Fin n → ℝ} (hθ : θ ∈ D)
    (hθ' : θ + dt • u ∈ D) {V : ℝ} (hV : ‖u‖ ≤ V) {e : ℝ}
    (he : HasDerivAt (fun τ : ℝ => Spec.expect O fun c => Complex.exp (logPsi (θ + τ • u) c)) (e : ℂ) 0) :
    |(Spec.expect O fun c => Complex.exp (logPsi (θ + dt • u) c)).re
        - (Spec.expect O fun c => Complex.exp (logPsi θ c)).re - dt * e|
      ≤ dt ^ 2 * (M * (2 * (Λ * V ^ 2) + 5 * (G * V) ^ 2)) := by
  obtain ⟨s₀⟩ := ‹Nonempty C›
  have hne : ∀ p, (fun c => Complex.exp (logPsi p c)) ≠ 0 := fun p h0 => Complex.exp_ne_zero _ (congrFun h0 s₀)
  have hV0 : 0 ≤ V := (norm_nonneg _).trans hV
  have hG := hs.bound_nonneg
  have hΛ := hs.rate_nonneg
  rcases hdt.eq_or_lt with h0 | h0
  · rw [← h0]
    simp
  have hseg : ∀ τ ∈ Icc 0 dt, θ + τ • u ∈ D := by
    intro τ hτ
    have := hD hθ hθ' (a := 1 - τ / dt) (b := τ / dt)
      (by rw [sub_nonneg, div_le_one h0]; exact hτ.2) (div_nonneg hτ.1 h0.le) (by ring)
    have e : (1 - τ / dt) • θ + (τ / dt) • (θ + dt • u) = θ + τ • u := by
      rw [smul_add, smul_smul, div_mul_cancel₀ _ h0.ne', sub_smul, one_smul]
      abel
    rwa [e] at this
  set o : ℝ → C → ℂ := fun τ s => fderiv ℝ (fun p => logPsi p s) (θ + τ • u) u with ho
  set ψ : ℝ → C → ℂ := fun τ c => Complex.exp (logPsi (θ + τ • u) c) with hψ
  have hz : θ + (0 : ℝ) • u = θ := by simp
  have hψd : ∀ τ ∈ Icc 0 dt, HasDerivWithinAt (fun τ => toE (ψ τ)) (stepOp (o τ) 0 (toE (ψ τ))) (Icc 0 dt) τ := by
    intro τ hτ
    have := toE_deriv (fun s => (segment_deriv (hs.differentiable _ (hseg τ hτ) s)).hasDerivWithinAt (s := Icc 0 dt))
    refine this.congr_deriv ?_
    ext s
    simp [stepOp, toE, hψ, ho]
  have ho1 : ∀ τ ∈ Icc 0 dt, ∀ s, ‖o τ s‖ ≤ G * V := fun τ hτ s =>
    (hs.bound _ (hseg τ hτ) s u).trans (mul_le_mul_of_nonneg_left hV hG)
  have ho2 : ∀ τ ∈ Icc 0 dt, ∀ s, ‖o τ s - o 0 s‖ ≤ Λ * V ^ 2 * τ := by
    intro τ hτ s
    have := hs.rate _ hθ _ (hseg τ hτ) s u
    simp only [ho, hz]
    refine this.trans ?_
    rw [add_sub_cancel_left, norm_smul, Real.norm_of_nonneg hτ.1]
    have h1 : ‖u‖ * ‖u‖ ≤ V * V := mul_le_mul hV hV (norm_nonneg _) hV0
    calc Λ * (τ * ‖u‖) * ‖u‖ = Λ * τ * (‖u‖ * ‖u‖) := by ring
      _ ≤ Λ * τ * (V * V) := mul_le_mul_of_nonneg_left h1 (mul_nonneg hΛ hτ.1)
      _ = _ := by ring
  have h0mem : (0 : ℝ) ∈ Icc 0 dt := ⟨le_rfl, hdt⟩
  have hzero : NormAtMost (0 : Matrix C C ℂ) 0 := ⟨le_rfl, fun ψ => by simp [norm2]⟩
  have hb : ∀ τ ∈ Icc 0 dt, ∀ x, ‖stepOp (o τ) 0 x‖ ≤ G * V * ‖x‖ := fun τ hτ x => by
    have := stepOp_bound (o τ) 0 _ 0 (by positivity) (ho1 τ hτ) hzero x
    rwa [add_zero] at this
  have hq : ∀ τ ∈ Icc 0 dt, ∀ x, ‖stepOp (o τ) 0 x - stepOp (o 0) 0 x‖ ≤ Λ * V ^ 2 * τ * ‖x‖ := fun τ hτ x => by
    have := stepOp_sub (o τ) (o 0) 0 0 _ 0 (mul_nonneg (by positivity) hτ.1) (ho2 τ hτ) (by simpa using hzero) x
    rwa [add_zero] at this
  have hn : ∀ τ, toE (ψ τ) ≠ 0 := fun τ => toE_ne _ (hne _)
  have h1 : ∀ τ, ‖‖toE (ψ τ)‖⁻¹ • toE (ψ τ)‖ = 1 := fun τ => by
    rw [norm_smul, norm_inv, norm_norm, inv_mul_cancel₀ (norm_pos_iff.mpr (hn τ)).ne']
  have hunit := unit_moves (ψ := fun τ => toE (ψ τ)) (g := G * V) (T := dt) hψd (fun τ _ => hn τ)
    (fun τ hτ => hb τ hτ _)
  set v : ℝ → EuclideanSpace ℂ C := fun τ => ‖toE (ψ τ)‖⁻¹ • toE (ψ τ) with hv
  set w : ℝ → EuclideanSpace ℂ C := fun τ => stepOp (o τ) 0 (v τ)
    - (inner ℂ (v τ) (stepOp (o τ) 0 (v τ))).re • v τ with hw
  have hvd : ∀ τ ∈ Icc 0 dt, HasDerivWithinAt v (w τ) (Icc 0 dt) τ := fun τ hτ =>
    unit_deriv _ (hψd τ hτ) (hn τ)
  have hexp : ∀ τ, Spec.expect O (ψ τ) = inner ℂ (v τ) (matE O (v τ)) := fun τ => expect_unit O _ (hne _)
  have hψ0 : ψ 0 = fun c => Complex.exp (logPsi θ c) := by simp only [hψ, hz]
  have key := expect_second_order hdt (matE O) (matE_symm hO) (matE_le hM) hM.1 hvd (fun τ _ => h1 τ)
    (unit_deriv_le (h1 0) ((hb 0 h0mem (v 0)).trans (by rw [h1 0, mul_one]))) hunit
    (fun τ hτ => unit_velocity (by positivity) (h1 τ) (h1 0) (hq τ hτ) (hb 0 h0mem) (hunit τ hτ))
  have hder : 2 * (inner ℂ (w 0) (matE O (v 0))).re = e := by
    have d1 := expect_deriv (matE O) (matE_symm hO) (hvd 0 h0mem)
    have d2 := (Complex.reCLM.hasFDerivAt).comp_hasDerivWithinAt 0 (he.hasDerivWithinAt (s := Icc 0 dt))
    have e3 : (fun t => (inner ℂ (v t) (matE O (v t))).re)
        = Complex.reCLM ∘ fun τ : ℝ => Spec.expect O fun c => Complex.exp (logPsi (θ + τ • u) c) := by
      funext t
      rw [← hexp]
      rfl
    rw [e3] at d1
    have := (uniqueDiffOn_Icc h0 0 h0mem).eq_deriv _ d1 d2
    rw [this]
    simp
  rw [hder, ← hexp, ← hexp, hψ0] at key
  refine key.trans (le_of_eq ?_)
  ring

end steps

end JVMC
